import Verif.Sanitise.Model
import Verif.EndToEnd.Columns
/-!
The cache of atomic moments: related keys have the same entry, entries never change.
-/
namespace Verif.Sanitise
open Verif.Common Verif.Scenario Verif.Orbits Verif.Components Verif.Moment Verif.State Verif.EndToEnd
open Verif.Symmetry (lexorderSymmetries)
open Verif.CollinsGisin

/-- The entries of the cache: every atom is related to its key, in range, not empty; related keys have the same entry. -/
structure CacheInv (n : Nat) (syms : List (List Nat)) (c : Cache) : Prop where
  len : ∀ k m, c.lookup k = some m → k.length = n
  orbit : ∀ k m, c.lookup k = some m → SameOrbit syms k (boolKey n m)
  lt : ∀ k m, c.lookup k = some m → ∀ x ∈ m, x < n
  ne : ∀ k m, c.lookup k = some m → m ≠ []
  closed : ∀ k k' m, c.lookup k = some m → SameOrbit syms k k' → c.lookup k' = some m

/-- No entry is lost or changed. -/
def Extends (c c' : Cache) : Prop := ∀ k m, c.lookup k = some m → c'.lookup k = some m

theorem Extends.refl (c : Cache) : Extends c c := fun _ _ h => h
theorem Extends.trans {a b c : Cache} (h1 : Extends a b) (h2 : Extends b c) : Extends a c := fun k m h => h2 k m (h1 k m h)

variable {n : Nat} {syms : List (List Nat)}

theorem inv_nil : CacheInv n syms [] := ⟨by simp, by simp, by simp, by simp, by simp⟩

/-- The key of an atom of the cache has the atom as its entry. -/
theorem CacheInv.self {c : Cache} (h : CacheInv n syms c) {k : List Bool} {m : List Nat} (hm : c.lookup k = some m) : c.lookup (boolKey n m) = some m :=
  h.closed _ _ _ hm (h.orbit _ _ hm)

theorem lookup_map_const {imgs : List (List Bool)} {mon : List Nat} {c : Cache} {k : List Bool} (h : k ∈ imgs) : (imgs.map (fun k => (k, mon)) ++ c).lookup k = some mon := by
  induction imgs with
  | nil => simp at h
  | cons a l ih =>
    rw [List.map_cons, List.cons_append, List.lookup_cons]
    by_cases hk : k = a
    · subst hk; simp
    · have : (k == a) = false := by simp [hk]
      rw [this]
      exact ih (by simpa [hk] using h)

theorem lookup_map_skip {imgs : List (List Bool)} {mon : List Nat} {c : Cache} {k : List Bool} (h : k ∉ imgs) : (imgs.map (fun k => (k, mon)) ++ c).lookup k = c.lookup k := by
  induction imgs with
  | nil => rfl
  | cons a l ih =>
    rw [List.map_cons, List.cons_append, List.lookup_cons]
    have : (k == a) = false := by simp only [beq_eq_false_iff_ne]; intro e; exact h (by simp [e])
    rw [this]
    exact ih fun hh => h (List.mem_cons_of_mem _ hh)

theorem nonempty_orbit (hG : IsGroup n syms) {f m : List Nat} (hn : ∀ x ∈ f, x < n) (hne : f ≠ []) (h : SameOrbit syms (boolKey n f) (boolKey n m)) : m ≠ [] := by
  intro hm
  obtain ⟨r, hr, e⟩ := h
  subst hm
  obtain ⟨x, hx⟩ := List.exists_mem_of_ne_nil f hne
  have hxr : x ∈ r := (hG.perm r hr).mem_iff.2 (List.mem_range.2 (hn x hx))
  have h1 : true ∈ image (boolKey n f) r := by
    unfold image
    refine List.mem_map.2 ⟨x, hxr, ?_⟩
    unfold boolKey
    rw [List.getD_eq_getElem _ _ (by simpa using hn x hx)]
    simpa using hx
  rw [e] at h1
  simp [boolKey] at h1

/-- One call of `_AtomicMonomial`. -/
theorem atomic_inv (hG : IsGroup n syms) {c : Cache} (hc : CacheInv n syms c) {a : List Nat} (hn : ∀ x ∈ a, x < n) (hne : a ≠ []) :
    CacheInv n syms (atomicMonomial n syms c a).1 ∧ Extends c (atomicMonomial n syms c a).1 ∧
      (atomicMonomial n syms c a).1.lookup (boolKey n a) = some (atomicMonomial n syms c a).2 := by
  have hself := boolKey_length n a
  unfold atomicMonomial
  simp only
  split
  · rename_i m hm
    exact ⟨hc, .refl c, hm⟩
  · rename_i hnone
    split
    · rename_i hl
      have hid : ∀ k k' : List Bool, k.length = n → SameOrbit syms k k' → k' = k := by
        rintro k k' hk ⟨r, hr, rfl⟩
        have : syms = [List.range n] := by
          have := hG.ident
          match syms, hl with
          | [x], _ => simpa using this
        rw [this, List.mem_singleton] at hr
        rw [hr, image_id hk]
      have hlook : ∀ k, ((boolKey n a, a) :: c).lookup k = if k = boolKey n a then some a else c.lookup k := by
        intro k
        rw [List.lookup_cons]
        by_cases h : k = boolKey n a
        · simp [h]
        · have hb : (k == boolKey n a) = false := by simp [h]
          rw [hb, if_neg h]
      have hcase : ∀ k m, ((boolKey n a, a) :: c).lookup k = some m → (k = boolKey n a ∧ m = a) ∨ c.lookup k = some m := by
        intro k m h
        rw [hlook] at h
        split at h
        · exact Or.inl ⟨by assumption, (Option.some.inj h).symm⟩
        · exact Or.inr h
      refine ⟨⟨?_, ?_, ?_, ?_, ?_⟩, ?_, ?_⟩
      · intro k m h
        rcases hcase k m h with ⟨rfl, -⟩ | h
        · exact hself
        · exact hc.len k m h
      · intro k m h
        rcases hcase k m h with ⟨rfl, rfl⟩ | h
        · exact sameOrbit_refl hG hself
        · exact hc.orbit k m h
      · intro k m h
        rcases hcase k m h with ⟨-, rfl⟩ | h
        · exact hn
        · exact hc.lt k m h
      · intro k m h
        rcases hcase k m h with ⟨-, rfl⟩ | h
        · exact hne
        · exact hc.ne k m h
      · intro k k' m h hk
        have hkl : k.length = n := by
          rcases hcase k m h with ⟨rfl, -⟩ | h
          · exact hself
          · exact hc.len k m h
        rw [hid k k' hkl hk]
        exact h
      · intro k m h
        rw [hlook, if_neg, h]
        rintro rfl
        rw [hnone] at h
        simp at h
      · rw [hlook, if_pos rfl]
    · set imgs := sortBy bvLe (syms.map (image (boolKey n a))) with himgs
      have hmemI : ∀ k, k ∈ imgs ↔ SameOrbit syms (boolKey n a) k := by
        intro k
        rw [himgs, mem_sortBy, List.mem_map]
        rfl
      have hlast : imgs.getLastD [] ∈ syms.map (image (boolKey n a)) := (getLast_sorted_max (l := syms.map (image (boolKey n a)))
          (List.mem_map.2 ⟨_, hG.id_mem, rfl⟩)).2
      obtain ⟨r, hr, er⟩ := List.mem_map.1 hlast
      have hlen : (imgs.getLastD []).length = n := by rw [← er, image_length, hG.row_length hr]
      have hkey : boolKey n (flatnonzero (imgs.getLastD [])) = imgs.getLastD [] := by
        have := boolKey_flatnonzero (v := imgs.getLastD [])
        rwa [hlen] at this
      have hlast' : SameOrbit syms (boolKey n a) (boolKey n (flatnonzero (imgs.getLastD []))) := by
        rw [hkey]
        exact ⟨r, hr, er⟩
      have hlt : ∀ x ∈ flatnonzero (imgs.getLastD []), x < n := by
        intro x hx
        unfold flatnonzero at hx
        rw [List.mem_filter, List.mem_range, hlen] at hx
        exact hx.1
      have hall : ∀ k ∈ imgs, k.length = n ∧ SameOrbit syms k (boolKey n (flatnonzero (imgs.getLastD []))) := by
        intro k hk
        rw [hmemI] at hk
        exact ⟨sameOrbit_length hG hk, sameOrbit_trans hG (sameOrbit_symm hG hself hk) hlast'⟩
      have hselfI : boolKey n a ∈ imgs := (hmemI _).2 (sameOrbit_refl hG hself)
      have hnotin : ∀ k m, c.lookup k = some m → k ∉ imgs := by
        intro k m h hk
        have := hc.closed k (boolKey n a) m h (sameOrbit_symm hG hself ((hmemI k).1 hk))
        rw [hnone] at this
        simp at this
      have hcase : ∀ k m, (imgs.map (fun k => (k, flatnonzero (imgs.getLastD []))) ++ c).lookup k = some m →
          (k ∈ imgs ∧ m = flatnonzero (imgs.getLastD [])) ∨ (k ∉ imgs ∧ c.lookup k = some m) := by
        intro k m h
        by_cases hk : k ∈ imgs
        · rw [lookup_map_const hk] at h
          exact Or.inl ⟨hk, (Option.some.inj h).symm⟩
        · rw [lookup_map_skip hk] at h
          exact Or.inr ⟨hk, h⟩
      refine ⟨⟨?_, ?_, ?_, ?_, ?_⟩, ?_, ?_⟩
      · intro k m h
        rcases hcase k m h with ⟨hk, -⟩ | ⟨-, h⟩
        · exact (hall k hk).1
        · exact hc.len k m h
      · intro k m h
        rcases hcase k m h with ⟨hk, rfl⟩ | ⟨-, h⟩
        · exact (hall k hk).2
        · exact hc.orbit k m h
      · intro k m h
        rcases hcase k m h with ⟨-, rfl⟩ | ⟨-, h⟩
        · exact hlt
        · exact hc.lt k m h
      · intro k m h
        rcases hcase k m h with ⟨-, rfl⟩ | ⟨-, h⟩
        · exact nonempty_orbit hG hn hne hlast'
        · exact hc.ne k m h
      · intro k k' m h hk
        rcases hcase k m h with ⟨hkI, rfl⟩ | ⟨hkI, h⟩
        · exact lookup_map_const ((hmemI k').2 (sameOrbit_trans hG ((hmemI k).1 hkI) hk))
        · rw [lookup_map_skip]
          · exact hc.closed k k' m h hk
          · intro hk'
            exact hkI ((hmemI k).2 (sameOrbit_trans hG ((hmemI k').1 hk') (sameOrbit_symm hG (hc.len k m h) hk)))
      · intro k m h
        rw [lookup_map_skip (hnotin k m h)]
        exact h
      · exact lookup_map_const hselfI

/-- The atoms of the factors: after the call the cache holds them under the keys of the factors. -/
theorem atomsOf_inv {S : Scenario} : ∀ (fs : List (List Nat)) (c : Cache), CacheInv S.lexorder.length (lexorderSymmetries S) c →
    (∀ f ∈ fs, ∀ x ∈ f, x < S.lexorder.length) →
    CacheInv S.lexorder.length (lexorderSymmetries S) (atomsOf S c fs).1 ∧ Extends c (atomsOf S c fs).1 ∧
      List.Forall₂ (fun f m => (atomsOf S c fs).1.lookup (boolKey S.lexorder.length f) = some m) (fs.filter fun f => !f.isEmpty) (atomsOf S c fs).2 := by
  intro fs
  induction fs with
  | nil => intro c hc _; exact ⟨hc, .refl c, .nil⟩
  | cons f fs ih =>
    intro c hc hf
    unfold atomsOf
    by_cases he : f.isEmpty = true
    · rw [if_pos he, List.filter_cons_of_neg (by simp [he])]
      exact ih c hc fun g hg => hf g (List.mem_cons_of_mem _ hg)
    · rw [if_neg he, List.filter_cons_of_pos (by simpa using he)]
      have hh := hf f (List.mem_cons_self ..)
      obtain ⟨h1, h2, h2'⟩ := atomic_inv (symmetries_isGroup S) hc hh (by simpa using he)
      obtain ⟨h3, h4, h5⟩ := ih _ h1 fun g hg => hf g (List.mem_cons_of_mem _ hg)
      exact ⟨h3, h2.trans h4, .cons (h4 _ _ h2') h5⟩

end Verif.Sanitise

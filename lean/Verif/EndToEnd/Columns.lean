import Verif.EndToEnd.Model
import Verif.EndToEnd.Factor
import Verif.Moment.Lemmas
import Verif.EndToEnd.Truth
/-!
The moments of the columns: sorted atoms, and the value a classical model gives to them.
-/
namespace Verif.EndToEnd
open Verif.Common Verif.Scenario Verif.Orbits Verif.Components Verif.Moment Verif.State Verif.CollinsGisin
open Verif.Symmetry (lexorderSymmetries)
open ClassicalModel (Capacity)

/-- An atom that stands for a set of operators: increasing ranks, related to the set by a relabelling of copies. -/
structure StandsFor (n : Nat) (syms : List (List Nat)) (k : List Bool) (m : List Nat) : Prop where
  sorted : m.Pairwise (· < ·)
  lt : ∀ x ∈ m, x < n
  orbit : SameOrbit syms k (boolKey n m)

def CacheSound (n : Nat) (syms : List (List Nat)) (c : Cache) : Prop := ∀ k m, c.lookup k = some m → StandsFor n syms k m

theorem atomic_sound {n : Nat} {syms : List (List Nat)} (h : IsGroup n syms) {c : Cache} (hc : CacheSound n syms c) {a : List Nat}
    (ha : a.Pairwise (· < ·)) (hn : ∀ x ∈ a, x < n) :
    CacheSound n syms (atomicMonomial n syms c a).1 ∧ StandsFor n syms (boolKey n a) (atomicMonomial n syms c a).2 := by
  unfold atomicMonomial
  simp only
  split
  · rename_i m hm
    exact ⟨hc, hc _ _ hm⟩
  · split
    · have hs : StandsFor n syms (boolKey n a) a := ⟨ha, hn, sameOrbit_refl h (boolKey_length n a)⟩
      refine ⟨?_, hs⟩
      intro k m hk
      rw [List.lookup_cons] at hk
      by_cases hkk : k = boolKey n a
      · subst hkk
        simp only [BEq.rfl, Option.some.injEq] at hk
        exact hk ▸ hs
      · have : (k == boolKey n a) = false := by simp [hkk]
        rw [this] at hk
        exact hc k m hk
    · set imgs := sortBy bvLe (syms.map (image (boolKey n a))) with himgs
      have hlast : imgs.getLastD [] ∈ syms.map (image (boolKey n a)) := (getLast_sorted_max (l := syms.map (image (boolKey n a)))
          (List.mem_map.2 ⟨_, h.id_mem, rfl⟩)).2
      obtain ⟨r, hr, er⟩ := List.mem_map.1 hlast
      have hlen : (imgs.getLastD []).length = n := by rw [← er, image_length, h.row_length hr]
      have hkey : boolKey n (flatnonzero (imgs.getLastD [])) = imgs.getLastD [] := by
        have := boolKey_flatnonzero (v := imgs.getLastD [])
        rwa [hlen] at this
      have hall : ∀ k ∈ imgs, StandsFor n syms k (flatnonzero (imgs.getLastD [])) := by
        intro k hk
        rw [himgs, mem_sortBy, List.mem_map] at hk
        obtain ⟨t, ht, rfl⟩ := hk
        refine ⟨flatnonzero_sorted _, ?_, ?_⟩
        · intro x hx
          unfold flatnonzero at hx
          rw [List.mem_filter, List.mem_range, hlen] at hx
          exact hx.1
        · rw [hkey]
          exact sameOrbit_trans h (sameOrbit_symm h (boolKey_length n a) ⟨t, ht, rfl⟩) ⟨r, hr, er⟩
      refine ⟨?_, ?_⟩
      · intro k m hk
        rcases lookup_append_map hk with ⟨h1, h2⟩ | h1
        · rw [h2]; exact hall k h1
        · exact hc k m h1
      · have hself : boolKey n a ∈ imgs := by
          rw [himgs, mem_sortBy, List.mem_map]
          exact ⟨_, h.id_mem, image_id (boolKey_length n a)⟩
        exact hall _ hself

theorem factorize_sublist {S : Scenario} {mon f : List Nat} (hf : f ∈ factorize S mon) : f.Sublist mon := by
  unfold factorize at hf
  split at hf
  · simp only [List.mem_cons, List.not_mem_nil, or_false] at hf
    exact hf ▸ List.Sublist.refl _
  · unfold factorizeGeneral at hf
    obtain ⟨i, _, rfl⟩ := List.mem_map.1 hf
    exact List.filter_sublist

/-- The atoms of a moment, one for each non-empty factor. -/
theorem atomsOf_sound {S : Scenario} : ∀ (fs : List (List Nat)) (c : Cache), CacheSound S.lexorder.length (lexorderSymmetries S) c →
    (∀ f ∈ fs, f.Pairwise (· < ·) ∧ ∀ x ∈ f, x < S.lexorder.length) →
    CacheSound S.lexorder.length (lexorderSymmetries S) (atomsOf S c fs).1 ∧
      List.Forall₂ (fun f m => StandsFor S.lexorder.length (lexorderSymmetries S) (boolKey S.lexorder.length f) m) (fs.filter fun f => !f.isEmpty) (atomsOf S c fs).2 := by
  intro fs
  induction fs with
  | nil => intro c hc _; exact ⟨hc, .nil⟩
  | cons f fs ih =>
    intro c hc hf
    unfold atomsOf
    by_cases he : f.isEmpty = true
    · rw [if_pos he, List.filter_cons_of_neg (by simp [he])]
      exact ih c hc fun g hg => hf g (List.mem_cons_of_mem _ hg)
    · rw [if_neg he, List.filter_cons_of_pos (by simpa using he)]
      have hh := hf f (List.mem_cons_self ..)
      obtain ⟨h1, h2⟩ := atomic_sound (symmetries_isGroup S) hc hh.1 hh.2
      obtain ⟨h3, h4⟩ := ih _ h1 fun g hg => hf g (List.mem_cons_of_mem _ hg)
      exact ⟨h3, .cons h2 h4⟩

/-- Well-formed atoms: increasing ranks of operators, not empty. -/
structure GoodRanks (S : Scenario) (a : Atom) : Prop where
  sorted : a.Pairwise (· < ·)
  lt : ∀ x ∈ a, x < S.lexorder.length
  ne : a ≠ []

variable {S : Scenario} {O : Observed} {Λ F : Type} [Fintype Λ] [Field F] [LinearOrder F] (M : ClassicalModel S O Λ F)

theorem event_standsFor {f m : List Nat} (hf : f.Pairwise (· < ·)) (hn : ∀ x ∈ f, x < S.lexorder.length)
    (h : StandsFor S.lexorder.length (lexorderSymmetries S) (boolKey S.lexorder.length f) m) : M.event m = M.event f := by
  rw [← M.vec_boolKey (h.sorted.imp Nat.ne_of_lt) h.lt, ← M.vec_boolKey (hf.imp Nat.ne_of_lt) hn]
  exact (M.vec_invariant _ _ (boolKey_length _ _) h.orbit).symm

theorem nonempty_standsFor {n : Nat} {syms : List (List Nat)} (hG : IsGroup n syms) {f m : List Nat} (hn : ∀ x ∈ f, x < n) (hne : f ≠ [])
    (h : StandsFor n syms (boolKey n f) m) : m ≠ [] := by
  intro hm
  obtain ⟨r, hr, e⟩ := h.orbit
  subst hm
  obtain ⟨x, hx⟩ := List.exists_mem_of_ne_nil f hne
  have hxr : x ∈ r := (hG.perm r hr).mem_iff.2 (List.mem_range.2 (hn x hx))
  have h1 : true ∈ image (boolKey n f) r := by
    unfold image
    refine List.mem_map.2 ⟨x, hxr, ?_⟩
    unfold boolKey
    rw [List.getD_eq_getElem _ _ (by simpa using hn x hx)]
    simpa using hx
  rw [e] at h1
  simp [boolKey] at h1

/-- One moment: its atoms are well formed and the model's value of the moment is the probability of its event. -/
theorem monomialOf_sound {c : Cache} (hc : CacheSound S.lexorder.length (lexorderSymmetries S) c) {a : List Nat} (ha : a.Pairwise (· < ·))
    (hn : ∀ x ∈ a, x < S.lexorder.length) :
    CacheSound S.lexorder.length (lexorderSymmetries S) (monomialOf S c a).1 ∧ (∀ m ∈ (monomialOf S c a).2, GoodRanks S m) ∧
      (∀ {O : Observed} {Λ F : Type} [Fintype Λ] [Field F] [LinearOrder F] (M : ClassicalModel S O Λ F), Capacity S a → valF M.event (monomialOf S c a).2 = M.event a) := by
  have hf : ∀ f ∈ factorize S a, f.Pairwise (· < ·) ∧ ∀ x ∈ f, x < S.lexorder.length := fun f hf =>
    ⟨ha.sublist (factorize_sublist hf), fun x hx => hn x ((factorize_sublist hf).subset hx)⟩
  obtain ⟨h1, h2⟩ := atomsOf_sound (factorize S a) c hc hf
  have hf' : ∀ f ∈ (factorize S a).filter (fun f => !f.isEmpty), f ≠ [] ∧ f.Pairwise (· < ·) ∧ ∀ x ∈ f, x < S.lexorder.length := fun f hh => by
    rw [List.mem_filter] at hh
    exact ⟨by simpa using hh.2, hf f hh.1⟩
  refine ⟨h1, ?_, ?_⟩
  · intro m hm
    unfold monomialOf at hm
    rw [mem_sortBy] at hm
    clear h1
    generalize (factorize S a).filter (fun f => !f.isEmpty) = fs at h2 hf'
    generalize (atomsOf S c (factorize S a)).2 = ms at h2 hm
    induction h2 with
    | nil => simp at hm
    | cons h _ ih =>
      rcases List.mem_cons.1 hm with rfl | hm
      · have := hf' _ (List.mem_cons_self ..)
        exact ⟨h.sorted, h.lt, nonempty_standsFor (symmetries_isGroup S) this.2.2 this.1 h⟩
      · exact ih (fun g hg => hf' g (List.mem_cons_of_mem _ hg)) hm
  · intro O Λ F _ _ _ M hcap
    rw [M.event_factorize a hn hcap]
    show valF M.event (sortBy atomLe (atomsOf S c (factorize S a)).2) = _
    rw [valF_perm _ (sortBy_perm _ _)]
    have hdrop : ∀ fs : List (List Nat), (fs.map M.event).prod = ((fs.filter fun f => !f.isEmpty).map M.event).prod := by
      intro fs
      induction fs with
      | nil => rfl
      | cons f fs ih =>
        by_cases he : f.isEmpty = true
        · rw [List.filter_cons_of_neg (by simp [he]), List.map_cons, List.prod_cons, ih]
          have : f = [] := by simpa using he
          subst this
          have : M.event [] = 1 := by
            unfold ClassicalModel.event
            exact expect_one (fun c : Copy S => M.source c.1) M.weight_sum
          rw [this, one_mul]
        · rw [List.filter_cons_of_pos (by simpa using he), List.map_cons, List.prod_cons, ih, List.map_cons, List.prod_cons]
    rw [hdrop]
    unfold valF
    congr 1
    clear h1
    generalize (factorize S a).filter (fun f => !f.isEmpty) = fs at h2 hf'
    generalize (atomsOf S c (factorize S a)).2 = ms at h2
    induction h2 with
    | nil => rfl
    | cons h _ ih =>
      have := hf' _ (List.mem_cons_self ..)
      rw [List.map_cons, List.map_cons, ih (fun g hg => hf' g (List.mem_cons_of_mem _ hg)), event_standsFor M this.2.1 this.2.2 h]

theorem flatnonzero_lt {n : Nat} {v : List Bool} (hv : v.length = n) : ∀ x ∈ flatnonzero v, x < n := by
  intro x hx
  unfold flatnonzero at hx
  rw [List.mem_filter, List.mem_range, hv] at hx
  exact hx.1

/-- The columns: as many moments as vectors, well-formed atoms, and the model's values are the probabilities of the columns' events. -/
theorem columnMoments_sound : ∀ (vs : List (List Bool)) (c : Cache), CacheSound S.lexorder.length (lexorderSymmetries S) c →
    (∀ v ∈ vs, v.length = S.lexorder.length) →
    (∀ m ∈ columnMoments S c vs, ∀ a ∈ m, GoodRanks S a) ∧
    List.Forall₂ (fun v m => ∀ {O : Observed} {Λ F : Type} [Fintype Λ] [Field F] [LinearOrder F] (M : ClassicalModel S O Λ F),
      Capacity S (flatnonzero v) → valF M.event m = M.vec v) vs (columnMoments S c vs) := by
  intro vs
  induction vs with
  | nil => intro c _ _; exact ⟨by simp [columnMoments], .nil⟩
  | cons v vs ih =>
    intro c hc hv
    have hlen := hv v (List.mem_cons_self ..)
    obtain ⟨h1, h2, h3⟩ := monomialOf_sound hc (flatnonzero_sorted v) (flatnonzero_lt hlen)
    obtain ⟨h4, h5⟩ := ih (monomialOf S c (flatnonzero v)).1 h1 fun w hw => hv w (List.mem_cons_of_mem _ hw)
    unfold columnMoments
    refine ⟨?_, ?_⟩
    · intro m hm
      rcases List.mem_cons.1 hm with rfl | hm
      · exact h2
      · exact h4 m hm
    · refine .cons ?_ h5
      intro O Λ F _ _ _ M hcap
      exact h3 M hcap

theorem nil_sound (n : Nat) (syms : List (List Nat)) : CacheSound n syms [] := by
  intro k m hk
  simp at hk

end Verif.EndToEnd

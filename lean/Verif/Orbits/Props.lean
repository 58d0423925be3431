import Verif.Orbits.Lemmas
import Verif.Symmetry.Props
/-
C16 (LP moments are identified along orbits) and C17 (representatives do not depend on history).
-/
namespace Verif.Orbits
open Verif.Common

/-! ## the symmetries of every problem form a group -/

/-- The rows computed for any problem satisfy the hypothesis of the theorems below. -/
theorem symmetries_isGroup (S : Verif.Scenario.Scenario) :
    IsGroup S.lexorder.length (Verif.Symmetry.lexorderSymmetries S) where
  ident := Verif.Symmetry.C14_identity_first S
  perm := Verif.Symmetry.C14_rows_are_permutations S
  comp := fun r hr t ht => (Verif.Symmetry.C14_group S r t hr ht).1
  inv := fun r hr => (Verif.Symmetry.C14_group S r r hr hr).2

/-! ## C16 -/

/-- **C16.** The number given to the `j`-th moment is the least position of a moment related to it by a symmetry. -/
theorem C16_orbit_representative {n : Nat} {syms : List (List Nat)} (h : IsGroup n syms) (vecs : List (List Bool))
    (hlen : ∀ v ∈ vecs, v.length = n) (hnd : vecs.Nodup) (j k : Nat) (w : List Bool) (hw : vecs[j]? = some w) :
    (discoverOrbits syms vecs)[j]? = some (some k) ↔
      (∃ v, vecs[k]? = some v ∧ SameOrbit syms v w) ∧
      ∀ l u, vecs[l]? = some u → SameOrbit syms u w → k ≤ l := by
  obtain ⟨hj, rfl⟩ := List.getElem?_eq_some_iff.1 hw
  unfold discoverOrbits
  split
  · rw [orbitStep_fold syms vecs _ (Nat.le_refl _)]
    simp only [List.getElem?_map, List.getElem?_range hj, Option.map_some, Option.some.injEq]
    rw [orbit_fold h hlen hnd vecs.length (Nat.le_refl _) j hj k]
    constructor
    · rintro ⟨h1, ⟨v, w, h2, h3, h4⟩, h5⟩
      rw [List.getElem?_eq_getElem hj] at h3
      simp only [Option.some.injEq] at h3
      subst h3
      exact ⟨⟨v, h2, h4⟩, fun l u hl hu => h5 l ⟨u, _, hl, List.getElem?_eq_getElem hj, hu⟩⟩
    · rintro ⟨⟨v, h2, h4⟩, h5⟩
      refine ⟨(List.getElem?_eq_some_iff.1 h2).1, ⟨v, _, h2, List.getElem?_eq_getElem hj, h4⟩, ?_⟩
      rintro l ⟨u, w, hl, hw, hu⟩
      rw [List.getElem?_eq_getElem hj] at hw
      simp only [Option.some.injEq] at hw
      subst hw
      exact h5 l u hl hu
  · rename_i hone
    simp only [List.getElem?_map, List.getElem?_range hj, Option.map_some, Option.some.injEq]
    have honly : ∀ u v, u.length = n → (SameOrbit syms u v ↔ u = v) := by
      intro u v hu
      have hid := h.ident
      have hmem := h.id_mem
      have hs : syms = [List.range n] := by
        cases syms with
        | nil => simp at hid
        | cons a l =>
          simp only [List.head?_cons, Option.some.injEq] at hid
          simp only [List.length_cons] at hone
          have : l = [] := List.length_eq_zero_iff.1 (by omega)
          rw [this, hid]
      unfold SameOrbit
      rw [hs]
      simp [image_id hu]
    constructor
    · rintro rfl
      refine ⟨⟨_, List.getElem?_eq_getElem hj, sameOrbit_refl h (hlen _ (List.getElem_mem hj))⟩, ?_⟩
      intro l u hl hu
      obtain ⟨hll, rfl⟩ := List.getElem?_eq_some_iff.1 hl
      rw [honly _ _ (hlen _ (List.getElem_mem hll))] at hu
      have := hnd.getElem_inj_iff.1 hu
      omega
    · rintro ⟨⟨v, hv, hvw⟩, _⟩
      obtain ⟨hkl, rfl⟩ := List.getElem?_eq_some_iff.1 hv
      rw [honly _ _ (hlen _ (List.getElem_mem hkl))] at hvw
      exact (hnd.getElem_inj_iff.1 hvw).symm

/-- **C16, identification.** Every moment gets a number, and two moments get the same number iff a symmetry relates them. -/
theorem C16_identified_iff_same_orbit {n : Nat} {syms : List (List Nat)} (h : IsGroup n syms) (vecs : List (List Bool))
    (hlen : ∀ v ∈ vecs, v.length = n) (hnd : vecs.Nodup) (i j : Nat) (v w : List Bool) (hv : vecs[i]? = some v)
    (hw : vecs[j]? = some w) :
    (∃ k : Nat, (discoverOrbits syms vecs)[i]? = some (some k) ∧ k ≤ i) ∧
    ((discoverOrbits syms vecs)[i]? = (discoverOrbits syms vecs)[j]? ↔ SameOrbit syms v w) := by
  have key : ∀ (i : Nat) (v : List Bool), vecs[i]? = some v → ∃ k : Nat, (discoverOrbits syms vecs)[i]? = some (some k) ∧ k ≤ i := by
    intro i v hv
    classical
    have hrefl := sameOrbit_refl h (hlen _ (List.mem_of_getElem? hv))
    have hex : ∃ k : Nat, ∃ u, vecs[k]? = some u ∧ SameOrbit syms u v := ⟨i, v, hv, hrefl⟩
    refine ⟨Nat.find hex, ?_, Nat.find_min' hex ⟨v, hv, hrefl⟩⟩
    rw [C16_orbit_representative h vecs hlen hnd i _ v hv]
    exact ⟨Nat.find_spec hex, fun l u h1 h2 => Nat.find_min' hex ⟨u, h1, h2⟩⟩
  refine ⟨key i v hv, ?_⟩
  obtain ⟨k, hk, _⟩ := key i v hv
  obtain ⟨⟨u, hu, huv⟩, hmin⟩ := (C16_orbit_representative h vecs hlen hnd i k v hv).1 hk
  have hvl := hlen _ (List.mem_of_getElem? hv)
  have hul := hlen _ (List.mem_of_getElem? hu)
  constructor
  · intro e
    rw [hk] at e
    obtain ⟨⟨u', hu', hu'w⟩, _⟩ := (C16_orbit_representative h vecs hlen hnd j k w hw).1 e.symm
    rw [hu] at hu'
    simp only [Option.some.injEq] at hu'
    subst hu'
    exact sameOrbit_trans h (sameOrbit_symm h hul huv) hu'w
  · intro hvw
    rw [hk]
    symm
    rw [C16_orbit_representative h vecs hlen hnd j k w hw]
    refine ⟨⟨u, hu, sameOrbit_trans h huv hvw⟩, ?_⟩
    intro l x hl hx
    exact hmin l x hl (sameOrbit_trans h hx (sameOrbit_symm h hvl hvw))

example : IsGroup 3 [[0, 1, 2], [1, 0, 2]] ∧
    discoverOrbits [[0, 1, 2], [1, 0, 2]]
      [[false, false, true], [true, false, false], [false, true, false], [true, true, false]] =
      [some 0, some 1, some 1, some 3] := by
  refine ⟨⟨by decide, by decide, by decide, ?_⟩, by decide⟩
  intro r hr
  simp only [List.mem_cons, List.not_mem_nil, or_false] at hr
  rcases hr with rfl | rfl
  · exact ⟨[0, 1, 2], by decide, by decide⟩
  · exact ⟨[1, 0, 2], by decide, by decide⟩

/-! ## C17 -/

/-- **C17 (inflated problems).** When there is more than one symmetry, the representative assigned to a set of operators after any history of calls is the one
that a fresh object would assign, and two sets of operators get the same representative iff a symmetry relates them. -/
theorem C17_representative_history_independent {n : Nat} {syms : List (List Nat)} (h : IsGroup n syms)
    (hl : syms.length ≠ 1) (history : List (List Nat)) (a : List Nat) :
    (atomicMonomial n syms (cacheAfter n syms history) a).2 = (atomicMonomial n syms [] a).2 ∧
    (∀ history' b, ((atomicMonomial n syms (cacheAfter n syms history) a).2 =
        (atomicMonomial n syms (cacheAfter n syms history') b).2 ↔
      SameOrbit syms (boolKey n a) (boolKey n b))) := by
  have h0 : CacheOk n syms [] := by intro k m hk; simp at hk
  have e : ∀ history a, (atomicMonomial n syms (cacheAfter n syms history) a).2 = repOf syms (boolKey n a) :=
    fun history a => (cacheOk_step h hl (cacheOk_after h hl history) a).2
  refine ⟨?_, ?_⟩
  · rw [e, (cacheOk_step h hl h0 a).2]
  · intro history' b
    rw [e, e]
    constructor
    · intro heq
      have get : ∀ a, SameOrbit syms (boolKey n a) (boolKey n (repOf syms (boolKey n a))) := by
        intro a
        have hm := (getLast_sorted_max (l := syms.map (image (boolKey n a)))
          (List.mem_map.2 ⟨_, h.id_mem, rfl⟩)).2
        rw [List.mem_map] at hm
        obtain ⟨r, hr, er⟩ := hm
        refine ⟨r, hr, ?_⟩
        unfold repOf
        rw [← er]
        have hlen : (image (boolKey n a) r).length = n := by rw [image_length, h.row_length hr]
        have hb := boolKey_flatnonzero (v := image (boolKey n a) r)
        rw [hlen] at hb
        exact hb.symm
      have ga := get a
      rw [heq] at ga
      exact sameOrbit_trans h ga (sameOrbit_symm h (boolKey_length n b) (get b))
    · intro hs
      unfold repOf
      rw [best_eq_of_sameOrbit h (boolKey_length n a) (boolKey_length n b) hs]

/-- **C17 fails without inflation.** When the identity is the only symmetry, the order in which the operators are listed at the first call
decides the representative returned to all later calls: after a call with `[1, 0]`, the call with `[0, 1]`
returns `[1, 0]`, while a fresh object returns `[0, 1]`. -/
theorem C17_order_leaks_without_inflation :
    (atomicMonomial 2 [[0, 1]] (cacheAfter 2 [[0, 1]] [[1, 0]]) [0, 1]).2 = [1, 0] ∧
    (atomicMonomial 2 [[0, 1]] [] [0, 1]).2 = [0, 1] := by decide

/-- **C17 (not inflated), what does hold.** If every call lists its operators in increasing order, each call returns its own
argument. -/
theorem C17_sorted_calls_history_independent_partial {n : Nat} {syms : List (List Nat)} (hl : syms.length = 1)
    (history : List (List Nat)) (hh : ∀ a ∈ history, a.Pairwise (· < ·) ∧ ∀ x ∈ a, x < n)
    (a : List Nat) (ha : a.Pairwise (· < ·)) (han : ∀ x ∈ a, x < n) :
    (atomicMonomial n syms (cacheAfter n syms history) a).2 = a := by
  have inv : ∀ (history : List (List Nat)), (∀ a ∈ history, a.Pairwise (· < ·) ∧ ∀ x ∈ a, x < n) →
      ∀ c : Cache, (∀ k m, c.lookup k = some m → m = flatnonzero k) →
      ∀ k m, (history.foldl (fun c a => (atomicMonomial n syms c a).1) c).lookup k = some m → m = flatnonzero k := by
    intro history
    induction history with
    | nil => exact fun _ c hc => hc
    | cons b t ih =>
      intro hb c hc
      apply ih (fun a ha => hb a (by simp [ha]))
      unfold atomicMonomial
      simp only
      split
      · exact hc
      · rw [if_pos hl]
        intro k m hk
        simp only [List.lookup_cons] at hk
        by_cases e : k = boolKey n b
        · subst e
          simp only [BEq.rfl, Option.some.injEq] at hk
          obtain ⟨h1, h2⟩ := hb b (by simp)
          rw [flatnonzero_boolKey_sorted h1 h2, hk]
        · have : (k == boolKey n b) = false := by simp [e]
          simp only [this] at hk
          exact hc k m hk
  unfold atomicMonomial
  simp only
  split
  · rename_i m hm
    have := inv history hh [] (by intro k m hk; simp at hk) _ _ hm
    rw [this, flatnonzero_boolKey_sorted ha han]
  · rw [if_pos hl]

example : (atomicMonomial 3 [[0, 1, 2], [1, 0, 2]] (cacheAfter 3 [[0, 1, 2], [1, 0, 2]] [[2], [1, 2]]) [0, 2]).2 = [0, 2] ∧
    (atomicMonomial 3 [[0, 1, 2], [1, 0, 2]] [] [2, 1]).2 = [0, 2] := by decide

end Verif.Orbits

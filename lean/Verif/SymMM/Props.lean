import Verif.SymMM.Lemmas
/-
C19: symmetrizing the moment matrix identifies exactly the entries related by a symmetry.
-/
namespace Verif.SymMM
open Verif.Common Verif.Orbits

theorem lookup_zip_map {old : List Nat} {g : Nat → Nat} {vals : List Nat} (hl : vals.length = old.length) {v : Nat} (hv : v ∈ old)
    (hg : vals.getD (old.idxOf v) 0 = g v) : (old.zip vals).lookup v = some (g v) := by
  induction old generalizing vals with
  | nil => simp at hv
  | cons a old ih =>
    cases vals with
    | nil => simp at hl
    | cons b vals =>
      simp only [List.zip_cons_cons, List.lookup_cons]
      by_cases e : v = a
      · subst e
        simp at hg
        simp [hg]
      · have e1 : (v == a) = false := by simp [e]
        have e2 : (a == v) = false := by simp [Ne.symm e]
        simp only [e1]
        apply ih (by simpa using hl) (by simpa [e] using hv)
        rw [List.idxOf_cons] at hg
        simpa [e2] using hg

theorem getD_of_getElem? {l : List Nat} {i v : Nat} (h : l[i]? = some v) : l.getD i 0 = v := by
  rw [List.getD_eq_getElem?_getD, h]; rfl

theorem exists_getElem? {l : List Nat} {i : Nat} (h : i < l.length) : ∃ v, l[i]? = some v :=
  ⟨_, List.getElem?_eq_getElem h⟩

theorem foldl_max_ge (l : List Nat) (a : Nat) : a ≤ l.foldl max a ∧ ∀ x ∈ l, x ≤ l.foldl max a := by
  induction l generalizing a with
  | nil => simp
  | cons b l ih =>
    simp only [List.foldl_cons, List.mem_cons]
    obtain ⟨h1, h2⟩ := ih (max a b)
    refine ⟨by omega, ?_⟩
    rintro x (rfl | hx)
    · omega
    · exact h2 x hx

/-- The result of the loop in closed form. -/
theorem apply_eq {N : Nat} {mm : List Nat} {perms : List (List Nat)} (h : Consistent N mm perms) (hne : perms ≠ []) :
    ∃ s, Inv N mm perms (perms.reverse ++ []) s ∧ applySymmetries N mm perms =
      some (s.inverse.map (· + (npUnique mm).headD 0), (npUnique mm).zip (s.tracker.map (· + (npUnique mm).headD 0)), s.repr) := by
  obtain ⟨s, e, hs⟩ := inv_loop h perms (fun _ hp => hp) (inv_init h)
  refine ⟨s, hs, ?_⟩
  unfold applySymmetries
  rw [if_neg hne, e]
  simp only [Option.map_some, Option.some.injEq, Prod.mk.injEq]
  have hget : ∀ k, k < s.flatPos.length →
      (s.newIdx.map (· + (npUnique mm).headD 0)).getD k 0 = k + (npUnique mm).headD 0 := by
    intro k hk
    rw [List.getD_eq_getElem _ _ (by simpa [hs.idx] using hk)]
    simp [hs.idx]
  refine ⟨?_, ?_, trivial⟩
  · apply List.map_congr_left
    intro k hk
    obtain ⟨x, hx, rfl⟩ := List.getElem_of_mem hk
    have := hs.cls x (by rw [← hs.linv]; exact hx)
    rw [List.getD_eq_getElem _ _ hx] at this
    exact hget _ this
  · congr 1
    apply List.map_congr_left
    intro k hk
    obtain ⟨c, hc, rfl⟩ := List.getElem_of_mem hk
    have hc' : c < (npUnique mm).length := by rw [← hs.ltrk]; exact hc
    have hin : (npUnique mm).getD c 0 ∈ mm := mem_npUnique.1 (getD_mem hc')
    obtain ⟨x, hx, ex⟩ := List.getElem_of_mem hin
    have hxN : x < N * N := by rw [← h.size]; exact hx
    have ht := hs.trk x hxN
    rw [List.getD_eq_getElem _ _ hx, ex, idxOf_getD (npUnique_nodup mm) hc', List.getD_eq_getElem _ _ hc] at ht
    have := hs.cls x hxN
    exact hget _ (by omega)

/-- **C19.** Symmetrization never fails; two cells of the symmetrized matrix hold the same number iff the
original entries are related by a symmetry; the dictionary of orbits maps every old entry to the new one; and the representatives
are exactly the least old entries of the orbits. -/
theorem C19_symmetrization {N : Nat} {mm : List Nat} {perms : List (List Nat)} (h : Consistent N mm perms) :
    ∃ sym orbits repr, applySymmetries N mm perms = some (sym, orbits, repr) ∧
      sym.length = N * N ∧
      (∀ x y, x < N * N → y < N * N → (sym[x]? = sym[y]? ↔ Related N mm perms x y)) ∧
      (∀ x v : Nat, mm[x]? = some v → ∃ w, sym[x]? = some w ∧ orbits.lookup v = some w) ∧
      (∀ v ∈ mm, v ∈ repr ↔ ∀ x y u : Nat, mm[x]? = some v → mm[y]? = some u → Related N mm perms x y → v ≤ u) := by
  have hsz := h.size
  have hlt : ∀ {x v : Nat}, mm[x]? = some v → x < N * N := by
    intro x v hv
    rw [← h.size]
    exact (List.getElem?_eq_some_iff.1 hv).1
  by_cases hne : perms = []
  · have honly : ∀ x y, x < N * N → (Related N mm perms x y ↔ mm[x]? = mm[y]?) := by
      intro x y hx
      unfold Related
      simp [hne, permCell_id hx]
    have hmax := (foldl_max_ge mm 0).2
    refine ⟨mm, _, _, by unfold applySymmetries; rw [if_pos hne], h.size, ?_, ?_, ?_⟩
    · intro x y hx _
      exact (honly x y hx).symm
    · intro x v hv
      refine ⟨v, hv, ?_⟩
      have hvm := hmax v (List.mem_of_getElem? hv)
      apply lookup_zip_map (g := id) rfl (by simp; omega)
      have : v < (List.range (mm.foldl max 0 + 1)).length := by simp; omega
      exact getD_idxOf (by simp; omega)
    · intro v hv
      have hvm := hmax v hv
      constructor
      · intro _ x y u hx hy hr
        rw [honly x y (hlt hx), hx, hy] at hr
        simp only [Option.some.injEq] at hr
        omega
      · intro _
        simp; omega
  · obtain ⟨s, hs, e⟩ := apply_eq h hne
    have hmin := fun k hk => rep_min h (s := s) (done := perms.reverse ++ []) (fun p hp => by simpa using hp) hs (k := k) hk
    have hrel : ∀ x, x < N * N → Related N mm perms x (s.flatPos.getD (s.inverse.getD x 0) 0) := by
      intro x hx
      have hk := hs.cls x hx
      exact hs.rel _ _ hx (hs.rep _ hk).1 (hs.rep _ hk).2.symm
    have hiff : ∀ x y, x < N * N → y < N * N → (s.inverse.getD x 0 = s.inverse.getD y 0 ↔ Related N mm perms x y) := by
      intro x y hx hy
      refine ⟨hs.rel x y hx hy, fun hr => ?_⟩
      have hkx := hs.cls x hx
      have hky := hs.cls y hy
      have hR := h.trans (hs.rep _ hkx).1 hx (h.symm hx (hs.rep _ hkx).1 (hrel x hx))
        (h.trans hx hy hr (hrel y hy))
      have heq := minCell_unique h (hs.rep _ hkx).1 (hs.rep _ hky).1 hR (hmin _ hkx) (hmin _ hky)
      have := hs.same _ _ (hs.rep _ hkx).1 (hs.rep _ hky).1 heq
      rwa [(hs.rep _ hkx).2, (hs.rep _ hky).2] at this
    have hsym : ∀ x, x < N * N → (s.inverse.map (· + (npUnique mm).headD 0))[x]? =
        some (s.inverse.getD x 0 + (npUnique mm).headD 0) := by
      intro x hx
      have hx' : x < s.inverse.length := by rw [hs.linv]; exact hx
      rw [List.getElem?_map, List.getElem?_eq_getElem hx', List.getD_eq_getElem _ _ hx']
      rfl
    refine ⟨_, _, _, e, by simpa using hs.linv, ?_, ?_, ?_⟩
    · intro x y hx hy
      rw [hsym x hx, hsym y hy, ← hiff x y hx hy]
      simp
    · intro x v hv
      have hx := hlt hv
      refine ⟨_, hsym x hx, ?_⟩
      have hvm : v ∈ npUnique mm := mem_npUnique.2 (List.mem_of_getElem? hv)
      apply lookup_zip_map (g := fun _ => s.inverse.getD x 0 + (npUnique mm).headD 0) (by simpa using hs.ltrk) hvm
      have ht := hs.trk x hx
      rw [getD_of_getElem? hv] at ht
      have hc : (npUnique mm).idxOf v < s.tracker.length := by rw [hs.ltrk]; exact List.idxOf_lt_length_iff.2 hvm
      rw [List.getD_eq_getElem _ _ hc] at ht
      rw [List.getD_eq_getElem _ _ (by simpa using hc)]
      simp [ht]
    · intro v hv
      constructor
      · intro hvr x y u hx hy hr
        obtain ⟨k, hk, ek⟩ := List.getElem_of_mem hvr
        have hk' : k < s.flatPos.length := by rw [← hs.lrepr]; exact hk
        have hkr := hs.repr k hk'
        rw [List.getD_eq_getElem _ _ hk, ek] at hkr
        have hR := (hs.rep k hk').1
        have hm := minCell_of_eq h hR (hlt hx) ((getD_eq_iff h hR (hlt hx)).1 (by rw [← hkr, getD_of_getElem? hx]))
          (hmin k hk')
        have := hm y (hlt hy) hr
        rwa [getD_of_getElem? hx, getD_of_getElem? hy] at this
      · intro hall
        obtain ⟨x, hx, ex⟩ := List.getElem_of_mem hv
        have hxN : x < N * N := by rw [← h.size]; exact hx
        have hxv : mm[x]? = some v := by rw [List.getElem?_eq_getElem hx, ex]
        have hm : MinCell N mm perms x := by
          intro y hy hr
          obtain ⟨u, hu⟩ := exists_getElem? (l := mm) (i := y) (by rw [h.size]; exact hy)
          rw [getD_of_getElem? hxv, getD_of_getElem? hu]
          exact hall x y u hxv hu hr
        have hk := hs.cls x hxN
        have h1 := hs.minrep x hxN hm
        have h2 := hs.repr _ hk
        rw [(getD_eq_iff h (hs.rep _ hk).1 hxN).2 h1, getD_of_getElem? hxv] at h2
        rw [← h2]
        exact getD_mem (by rw [hs.lrepr]; exact hk)

/-- **C19, numbering.** The new entries are consecutive, start at the least old entry (so the entry 0, which stands for a vanishing moment,
keeps its number when present), and are ordered as the least old entries of the orbits. -/
theorem C19_numbering {N : Nat} {mm : List Nat} {perms : List (List Nat)} (h : Consistent N mm perms) (hne : perms ≠ [])
    {sym repr : List Nat} {orbits : List (Nat × Nat)} (e : applySymmetries N mm perms = some (sym, orbits, repr)) (lo : Nat)
    (hlo : lo ∈ mm) (hle : ∀ v ∈ mm, lo ≤ v) :
    (∀ w, w ∈ sym ↔ lo ≤ w ∧ w < lo + repr.length) ∧
    (∀ x w : Nat, sym[x]? = some w → ∃ y v : Nat, mm[y]? = some v ∧ Related N mm perms x y ∧ repr[w - lo]? = some v) ∧
    repr.Pairwise (· < ·) := by
  obtain ⟨s, hs, e'⟩ := apply_eq h hne
  rw [e'] at e
  simp only [Option.some.injEq, Prod.mk.injEq] at e
  obtain ⟨e1, e2, e3⟩ := e
  subst e3
  have hhead : (npUnique mm).headD 0 = lo := by
    have hin : lo ∈ npUnique mm := mem_npUnique.2 hlo
    have hso := npUnique_sorted mm
    cases hu : npUnique mm with
    | nil => rw [hu] at hin; simp at hin
    | cons a l =>
      rw [hu] at hin hso
      have ha : a ∈ mm := mem_npUnique.1 (by rw [hu]; simp)
      have := hle a ha
      simp only [List.headD_cons]
      rcases List.mem_cons.1 hin with rfl | hl
      · rfl
      · have := (List.pairwise_cons.1 hso).1 lo hl
        omega
  rw [hhead] at e1
  subst e1
  have hmin := fun k hk => rep_min h (s := s) (done := perms.reverse ++ []) (fun p hp => by simpa using hp) hs (k := k) hk
  refine ⟨?_, ?_, ?_⟩
  · intro w
    rw [List.mem_map]
    constructor
    · rintro ⟨k, hk, rfl⟩
      obtain ⟨x, hx, rfl⟩ := List.getElem_of_mem hk
      have := hs.cls x (by rw [← hs.linv]; exact hx)
      rw [List.getD_eq_getElem _ _ hx] at this
      have := hs.lrepr
      omega
    · rintro ⟨h1, h2⟩
      have hk : w - lo < s.flatPos.length := by have := hs.lrepr; omega
      obtain ⟨h3, h4⟩ := hs.rep _ hk
      have hx : s.flatPos.getD (w - lo) 0 < s.inverse.length := by rw [hs.linv]; exact h3
      refine ⟨s.inverse.getD (s.flatPos.getD (w - lo) 0) 0, getD_mem hx, ?_⟩
      rw [h4]; omega
  · intro x w hw
    rw [List.getElem?_map, Option.map_eq_some_iff] at hw
    obtain ⟨k, hk, rfl⟩ := hw
    obtain ⟨hx, ek⟩ := List.getElem?_eq_some_iff.1 hk
    have hxN : x < N * N := by rw [← hs.linv]; exact hx
    have hK := hs.cls x hxN
    have hkk : s.inverse.getD x 0 = k := getD_of_getElem? hk
    rw [hkk] at hK
    obtain ⟨h3, h4⟩ := hs.rep _ hK
    obtain ⟨v, hv⟩ := exists_getElem? (l := mm) (i := s.flatPos.getD k 0) (by rw [h.size]; exact h3)
    refine ⟨_, v, hv, hs.rel _ _ hxN h3 (by rw [h4, hkk]), ?_⟩
    have hr := hs.repr k hK
    rw [getD_of_getElem? hv] at hr
    have hkl : k < s.repr.length := by rw [hs.lrepr]; exact hK
    rw [Nat.add_sub_cancel, List.getElem?_eq_getElem hkl]
    rw [List.getD_eq_getElem _ _ hkl] at hr
    rw [hr]
  · rw [List.pairwise_iff_getElem]
    intro i j hi hj hij
    have hi' : i < s.flatPos.length := by rw [← hs.lrepr]; exact hi
    have hj' : j < s.flatPos.length := by rw [← hs.lrepr]; exact hj
    have ei := hs.repr i hi'
    have ej := hs.repr j hj'
    rw [List.getD_eq_getElem _ _ hi] at ei
    rw [List.getD_eq_getElem _ _ hj] at ej
    obtain ⟨a1, a2⟩ := hs.rep i hi'
    obtain ⟨b1, b2⟩ := hs.rep j hj'
    rw [ei, ej]
    by_contra hge
    rcases Nat.lt_or_ge (mm.getD (s.flatPos.getD j 0) 0) (mm.getD (s.flatPos.getD i 0) 0) with hl | hl
    · have := hs.minord _ _ b1 a1 (hmin j hj') (hmin i hi') hl
      omega
    · have := hs.same _ _ a1 b1 ((getD_eq_iff h a1 b1).1 (by omega))
      omega

/-- A 2-column matrix with entries `0, 1, 2, 4` (all four cells different) and the swap of its columns: `0 ~ 4`, `1 ~ 2`. -/
example : Consistent 2 [0, 1, 2, 4] [[1, 0]] ∧
    applySymmetries 2 [0, 1, 2, 4] [[1, 0]] = some ([0, 1, 1, 0], [(0, 0), (1, 1), (2, 1), (4, 0)], [0, 1]) := by
  refine ⟨⟨by decide, ⟨by decide, by decide, by decide, ?_⟩, ?_⟩, by decide⟩
  · intro r hr
    simp only [List.mem_cons, List.not_mem_nil, or_false] at hr
    rcases hr with rfl | rfl
    · exact ⟨[0, 1], by decide, by decide⟩
    · exact ⟨[1, 0], by decide, by decide⟩
  · intro p hp x y hx hy
    simp only [List.mem_cons, List.not_mem_nil, or_false] at hp
    subst hp
    have hxy : ∀ x : Fin 4, ∀ y : Fin 4, ([0, 1, 2, 4] : List Nat)[x.1]? = ([0, 1, 2, 4] : List Nat)[y.1]? →
      ([0, 1, 2, 4] : List Nat)[permCell 2 [1, 0] x]? = ([0, 1, 2, 4] : List Nat)[permCell 2 [1, 0] y]? := by decide
    exact hxy ⟨x, by omega⟩ ⟨y, by omega⟩

end Verif.SymMM

import Mathlib.Data.List.GetD
import Mathlib.Data.Nat.Find
import Verif.Common.SortLemmas
import Verif.Orbits.Spec
namespace Verif.Orbits
open Verif.Common

variable {n : Nat} {syms : List (List Nat)}

theorem image_length (v : List Bool) (r : List Nat) : (image v r).length = r.length := by simp [image]

theorem IsGroup.row_length (h : IsGroup n syms) {r : List Nat} (hr : r ∈ syms) : r.length = n := by
  simpa using (h.perm r hr).length_eq

theorem IsGroup.row_lt (h : IsGroup n syms) {r : List Nat} (hr : r ∈ syms) {x : Nat} (hx : x ∈ r) : x < n :=
  List.mem_range.1 ((h.perm r hr).subset hx)

theorem image_id {v : List Bool} (hv : v.length = n) : image v (List.range n) = v := by
  apply List.ext_getElem (by simp [image, hv])
  intro i h1 h2
  simp [image, List.getD_eq_getElem?_getD, List.getElem?_eq_getElem h2]

/-- applying `r` and then `t` -/
theorem image_comp {v : List Bool} {r t : List Nat} (hr : r.length = n) (ht : ∀ x ∈ t, x < n) :
    image (image v r) t = image v (t.map fun k => r.getD k 0) := by
  unfold image
  rw [List.map_map]
  apply List.map_congr_left
  intro k hk
  have hkn := ht k hk
  have hkr : k < r.length := by omega
  simp [List.getD_eq_getElem?_getD, List.getElem?_eq_getElem hkr]

theorem IsGroup.id_mem (h : IsGroup n syms) : List.range n ∈ syms := by
  have := h.ident
  cases syms with
  | nil => simp at this
  | cons a l => simp at this; simp [this]

theorem sameOrbit_refl (h : IsGroup n syms) {v : List Bool} (hv : v.length = n) : SameOrbit syms v v :=
  ⟨_, h.id_mem, image_id hv⟩

theorem sameOrbit_trans (h : IsGroup n syms) {u v w : List Bool} (h1 : SameOrbit syms u v) (h2 : SameOrbit syms v w) :
    SameOrbit syms u w := by
  obtain ⟨r, hr, rfl⟩ := h1
  obtain ⟨t, ht, rfl⟩ := h2
  refine ⟨_, h.comp r hr t ht, ?_⟩
  rw [image_comp (n := n) (h.row_length hr) (fun x hx => h.row_lt ht hx)]

theorem sameOrbit_symm (h : IsGroup n syms) {u v : List Bool} (hu : u.length = n) (h1 : SameOrbit syms u v) :
    SameOrbit syms v u := by
  obtain ⟨r, hr, rfl⟩ := h1
  -- we need t with r ∘ t = id, i.e. the inverse of the inverse
  obtain ⟨t, ht, e⟩ := h.inv r hr
  obtain ⟨s, hs, e2⟩ := h.inv t ht
  -- t∘r = id (as maps k ↦ t[r[k]]), s∘t = id; hence r∘t = id
  have hrt : (t.map fun k => r.getD k 0) = List.range n := by
    apply List.ext_getElem (by simp [h.row_length ht])
    intro i h1 h2
    have hin : i < n := by simpa using h2
    simp only [List.getElem_map, List.getElem_range]
    have hti : t[i]'(by rw [h.row_length ht]; exact hin) < n := h.row_lt ht (List.getElem_mem _)
    have hri : t[i]'(by rw [h.row_length ht]; exact hin) < r.length := by rw [h.row_length hr]; exact hti
    rw [List.getD_eq_getElem _ _ hri]
    generalize hk : t[i]'(by rw [h.row_length ht]; exact hin) = k at *
    have hrk : r[k] < n := h.row_lt hr (List.getElem_mem _)
    have e3 := congrArg (fun l : List Nat => l[k]?) e
    simp only [List.getElem?_map, List.getElem?_eq_getElem hri, Option.map_some, List.getElem?_range hti,
      Option.some.injEq] at e3
    -- t[r[k]] = k = t[i] so r[k] = i
    have htr : r[k] < t.length := by rw [h.row_length ht]; exact hrk
    rw [List.getD_eq_getElem _ _ htr] at e3
    have hnd : t.Nodup := (h.perm t ht).nodup_iff.2 List.nodup_range
    exact (hnd.getElem_inj_iff (hi := htr) (hj := by rw [h.row_length ht]; exact hin)).1 (e3.trans hk.symm)
  refine ⟨t, ht, ?_⟩
  rw [image_comp (n := n) (h.row_length hr) (fun x hx => h.row_lt ht hx), hrt, image_id hu]

theorem sameOrbit_length (h : IsGroup n syms) {u v : List Bool} (h1 : SameOrbit syms u v) : v.length = n := by
  obtain ⟨r, hr, rfl⟩ := h1
  rw [image_length, h.row_length hr]

/-! ### the orbit loop -/

variable {vecs : List (List Bool)}

/-- Two positions hold vectors of one orbit. -/
def OrbitIdx (syms : List (List Nat)) (vecs : List (List Bool)) (i j : Nat) : Prop :=
  ∃ v w, vecs[i]? = some v ∧ vecs[j]? = some w ∧ SameOrbit syms v w

theorem mem_remaining (h : IsGroup n syms) (hlen : ∀ v ∈ vecs, v.length = n) (hnd : vecs.Nodup) {i j : Nat}
    (hi : i < vecs.length) :
    ((((syms.drop 1).map (image (vecs.getD i []))).filter fun w => !(w == vecs.getD i [])).filterMap
        fun w => vecs.idxOf? w).contains j = true ∨ j = i ↔ OrbitIdx syms vecs i j := by
  rw [List.getD_eq_getElem _ _ hi, List.contains_iff_mem]
  simp only [List.mem_filterMap, List.mem_filter, List.mem_map, Bool.not_eq_true', beq_eq_false_iff_ne]
  constructor
  · rintro (⟨w, ⟨⟨r, hr, rfl⟩, hne⟩, hj⟩ | rfl)
    · rw [List.idxOf?_eq_some_iff] at hj
      obtain ⟨hjl, e, _⟩ := hj
      refine ⟨vecs[i], vecs[j], List.getElem?_eq_getElem hi, List.getElem?_eq_getElem hjl, r, ?_, ?_⟩
      · exact List.mem_of_mem_drop hr
      · exact (by simpa using e.symm)
    · exact ⟨_, _, List.getElem?_eq_getElem hi, List.getElem?_eq_getElem hi,
        sameOrbit_refl h (hlen _ (List.getElem_mem hi))⟩
  · rintro ⟨v, w, h1, h2, r, hr, rfl⟩
    rw [List.getElem?_eq_getElem hi] at h1
    simp only [Option.some.injEq] at h1
    subst h1
    obtain ⟨hj, e⟩ := List.getElem?_eq_some_iff.1 h2
    by_cases hji : j = i
    · exact .inr hji
    · left
      refine ⟨_, ⟨⟨r, ?_, rfl⟩, ?_⟩, ?_⟩
      · have hid := h.ident
        cases syms with
        | nil => simp at hid
        | cons a l =>
          simp only [List.head?_cons, Option.some.injEq] at hid
          simp only [List.mem_cons] at hr
          rcases hr with rfl | hr
          · exfalso
            rw [hid, image_id (hlen _ (List.getElem_mem hi))] at e
            exact hji (hnd.getElem_inj_iff.1 e)
          · simpa using hr
      · intro e'
        rw [e'] at e
        exact hji (hnd.getElem_inj_iff.1 e)
      · rw [List.idxOf?_eq_some_iff]
        refine ⟨hj, by simpa using e, ?_⟩
        intro k hk hke
        have := hnd.getElem_inj_iff.1 ((by simpa using hke : vecs[k] = _).trans e.symm)
        omega

/-- `orbitStep` with the array as a function of the position. -/
def orbitFun (syms : List (List Nat)) (vecs : List (List Bool)) (o : Nat → Option Nat) (i : Nat) : Nat → Option Nat :=
  match o i with
  | some _ => o
  | none =>
    let initial := vecs.getD i []
    let variants := ((syms.drop 1).map (image initial)).filter fun w => !(w == initial)
    let remaining := variants.filterMap fun w => vecs.idxOf? w
    fun j => if remaining.contains j then some i else if j = i then some i else o j

theorem orbitStep_fold (syms : List (List Nat)) (vecs : List (List Bool)) (m : Nat) (hm : m ≤ vecs.length) :
    (List.range m).foldl (orbitStep syms vecs) (List.replicate vecs.length none) =
      (List.range vecs.length).map ((List.range m).foldl (orbitFun syms vecs) fun _ => none) := by
  induction m with
  | zero =>
    apply List.ext_getElem
    · simp
    · intro i h1 h2; simp
  | succ m ih =>
    rw [List.range_succ, List.foldl_append, List.foldl_append, ih (by omega)]
    simp only [List.foldl_cons, List.foldl_nil]
    generalize ((List.range m).foldl (orbitFun syms vecs) fun _ => none) = o
    have hg : ((List.range vecs.length).map o).getD m none = o m := by
      rw [List.getD_eq_getElem _ _ (by simpa using (by omega : m < vecs.length))]
      simp
    unfold orbitStep orbitFun
    rw [hg]
    cases o m with
    | some k => rfl
    | none =>
      dsimp only
      apply List.ext_getElem
      · simp
      · intro i h1 h2
        rw [List.getElem_mapIdx, List.getElem_map, List.getElem_map, List.getElem_range]

theorem discoverOrbits_length (syms : List (List Nat)) (vecs : List (List Bool)) : (discoverOrbits syms vecs).length = vecs.length := by
  unfold discoverOrbits
  split
  · rw [orbitStep_fold syms vecs _ (Nat.le_refl _)]; simp
  · simp

/-- After the first `m` rounds an entry is set iff the orbit has a member below `m`, and then it is the least member. -/
theorem orbit_fold (h : IsGroup n syms) (hlen : ∀ v ∈ vecs, v.length = n) (hnd : vecs.Nodup) (m : Nat) (hm : m ≤ vecs.length)
    (j : Nat) (hj : j < vecs.length) :
    ∀ k, ((List.range m).foldl (orbitFun syms vecs) fun _ => none) j = some k ↔
      k < m ∧ OrbitIdx syms vecs k j ∧ ∀ l, OrbitIdx syms vecs l j → k ≤ l := by
  have hget : ∀ i, i < vecs.length → ∃ v, vecs[i]? = some v := fun i hi => ⟨_, List.getElem?_eq_getElem hi⟩
  have hsymm : ∀ a b, OrbitIdx syms vecs a b → OrbitIdx syms vecs b a := by
    rintro a b ⟨v, w, h1, h2, h3⟩
    exact ⟨w, v, h2, h1, sameOrbit_symm h (hlen _ (List.mem_of_getElem? h1)) h3⟩
  have htrans : ∀ a b c, OrbitIdx syms vecs a b → OrbitIdx syms vecs b c → OrbitIdx syms vecs a c := by
    rintro a b c ⟨v, w, h1, h2, h3⟩ ⟨v', w', h1', h2', h3'⟩
    rw [h2] at h1'
    simp only [Option.some.injEq] at h1'
    subst h1'
    exact ⟨v, w', h1, h2', sameOrbit_trans h h3 h3'⟩
  have hrefl : ∀ a, a < vecs.length → OrbitIdx syms vecs a a := by
    intro a ha
    exact ⟨_, _, List.getElem?_eq_getElem ha, List.getElem?_eq_getElem ha,
      sameOrbit_refl h (hlen _ (List.getElem_mem ha))⟩
  induction m generalizing j with
  | zero => intro k; simp
  | succ m ih =>
    have ihm := ih (by omega)
    rw [List.range_succ, List.foldl_append]
    simp only [List.foldl_cons, List.foldl_nil]
    generalize ((List.range m).foldl (orbitFun syms vecs) fun _ => none) = o at *
    intro k
    cases hom : o m with
    | some k0 =>
      have hk0 := hom
      simp only [orbitFun, hom]
      rw [ihm j hj k]
      constructor
      · rintro ⟨h1, h2⟩; exact ⟨by omega, h2⟩
      · rintro ⟨h1, h2, h3⟩
        refine ⟨?_, h2, h3⟩
        by_contra hge
        have hkm : k = m := by omega
        subst hkm
        obtain ⟨a1, a2, a3⟩ := (ihm k (by omega) k0).1 hk0
        have := h3 k0 (htrans _ _ _ a2 h2)
        omega
    | none =>
      have hnone := hom
      -- `m` is the least member of its orbit
      have hleast : ∀ l, OrbitIdx syms vecs l m → m ≤ l := by
        intro l hl
        by_contra hlt
        -- take the least member
        have hex : ∃ l, OrbitIdx syms vecs l m := ⟨l, hl⟩
        classical
        have hmin := Nat.find_spec hex
        have hminle : ∀ l, OrbitIdx syms vecs l m → Nat.find hex ≤ l := fun l hl => Nat.find_min' hex hl
        have : o m = some (Nat.find hex) := (ihm m (by omega) _).2
          ⟨by have := hminle l hl; omega, hmin, hminle⟩
        rw [hnone] at this; simp at this
      have hrem := mem_remaining (j := j) h hlen hnd (show m < vecs.length by omega)
      simp only [orbitFun, hom]
      by_cases hor : OrbitIdx syms vecs m j
      · have : (if ((((syms.drop 1).map (image (vecs.getD m []))).filter fun w => !(w == vecs.getD m [])).filterMap
            fun w => vecs.idxOf? w).contains j = true then some m else if j = m then some m else o j) = some m := by
          rcases hrem.2 hor with h1 | h1
          · rw [if_pos h1]
          · split
            · rfl
            · rfl
        rw [this]
        simp only [Option.some.injEq]
        constructor
        · rintro rfl
          refine ⟨by omega, hor, ?_⟩
          intro l hl
          exact hleast l (htrans _ _ _ hl (hsymm _ _ hor))
        · rintro ⟨h1, h2, h3⟩
          have a := h3 m hor
          have b := hleast k (htrans _ _ _ h2 (hsymm _ _ hor))
          omega
      · have : (if ((((syms.drop 1).map (image (vecs.getD m []))).filter fun w => !(w == vecs.getD m [])).filterMap
            fun w => vecs.idxOf? w).contains j = true then some m else if j = m then some m else o j) = o j := by
          rw [if_neg, if_neg]
          · intro h1; exact hor (hrem.1 (.inr h1))
          · intro h1; exact hor (hrem.1 (.inl h1))
        rw [this, ihm j hj k]
        constructor
        · rintro ⟨h1, h2⟩; exact ⟨by omega, h2⟩
        · rintro ⟨h1, h2, h3⟩
          refine ⟨?_, h2, h3⟩
          by_contra hge
          have hkm : k = m := by omega
          subst hkm
          exact hor h2

/-! ### the order on bit vectors -/

theorem bvLe_total (a b : List Bool) : bvLe a b = true ∨ bvLe b a = true := by
  induction a generalizing b with
  | nil => simp [bvLe]
  | cons x a ih =>
    cases b with
    | nil => simp [bvLe]
    | cons y b =>
      have := ih b
      cases x <;> cases y <;> simp_all [bvLe]

theorem bvLe_trans (a b c : List Bool) (h1 : bvLe a b = true) (h2 : bvLe b c = true) : bvLe a c = true := by
  induction a generalizing b c with
  | nil => simp [bvLe]
  | cons x a ih =>
    cases b with
    | nil => simp [bvLe] at h1
    | cons y b =>
      cases c with
      | nil => simp [bvLe] at h2
      | cons z c =>
        cases x <;> cases y <;> cases z <;> simp_all [bvLe] <;> exact ih b c h1 h2

theorem bvLe_antisymm (a b : List Bool) (h1 : bvLe a b = true) (h2 : bvLe b a = true) : a = b := by
  induction a generalizing b with
  | nil => cases b with
    | nil => rfl
    | cons _ _ => simp [bvLe] at h2
  | cons x a ih =>
    cases b with
    | nil => simp [bvLe] at h1
    | cons y b =>
      cases x <;> cases y <;> simp_all [bvLe] <;> exact ih b h1 h2

/-- The representative: operators of the largest image. -/
def repOf (syms : List (List Nat)) (key : List Bool) : List Nat :=
  flatnonzero ((sortBy bvLe (syms.map (image key))).getLastD [])

theorem getLast_sorted_max {l : List (List Bool)} {x : List Bool} (hx : x ∈ l) :
    bvLe x ((sortBy bvLe l).getLastD []) = true ∧ (sortBy bvLe l).getLastD [] ∈ l := by
  have hs := sortBy_sorted bvLe bvLe_total bvLe_trans l
  have hne : sortBy bvLe l ≠ [] := by
    intro e
    have := (mem_sortBy (le := bvLe)).2 hx
    rw [e] at this; simp at this
  have hlast : (sortBy bvLe l).getLastD [] = (sortBy bvLe l).getLast hne := by
    rw [List.getLastD_eq_getLast?, List.getLast?_eq_getLast_of_ne_nil hne]; rfl
  rw [hlast]
  refine ⟨?_, mem_sortBy.1 (List.getLast_mem hne)⟩
  have hx' := (mem_sortBy (le := bvLe)).2 hx
  obtain ⟨i, hi, rfl⟩ := List.getElem_of_mem hx'
  rw [List.getLast_eq_getElem]
  rcases Nat.lt_or_ge i ((sortBy bvLe l).length - 1) with h | h
  · exact List.pairwise_iff_getElem.1 hs i _ hi (by omega) h
  · have : i = (sortBy bvLe l).length - 1 := by omega
    subst this
    rcases bvLe_total (sortBy bvLe l)[(sortBy bvLe l).length - 1] (sortBy bvLe l)[(sortBy bvLe l).length - 1] with h | h <;> exact h

/-- The largest image only depends on the orbit. -/
theorem best_eq_of_sameOrbit (h : IsGroup n syms) {u v : List Bool} (hu : u.length = n) (hv : v.length = n)
    (huv : SameOrbit syms u v) :
    (sortBy bvLe (syms.map (image u))).getLastD [] = (sortBy bvLe (syms.map (image v))).getLastD [] := by
  have key : ∀ u v : List Bool, u.length = n → v.length = n → SameOrbit syms u v →
      bvLe ((sortBy bvLe (syms.map (image v))).getLastD []) ((sortBy bvLe (syms.map (image u))).getLastD []) = true := by
    intro u v hu hv huv
    have h1 := (getLast_sorted_max (l := syms.map (image v)) (x := v) (List.mem_map.2 ⟨_, h.id_mem, image_id hv⟩)).2
    rw [List.mem_map] at h1
    obtain ⟨r, hr, e⟩ := h1
    have : SameOrbit syms u (image v r) := sameOrbit_trans h huv ⟨r, hr, rfl⟩
    obtain ⟨t, ht, e2⟩ := this
    rw [← e, ← e2]
    exact (getLast_sorted_max (List.mem_map.2 ⟨t, ht, rfl⟩)).1
  exact bvLe_antisymm _ _ (key v u hv hu (sameOrbit_symm h hu huv)) (key u v hu hv huv)

theorem boolKey_length (m : Nat) (a : List Nat) : (boolKey m a).length = m := by simp [boolKey]

theorem boolKey_flatnonzero {v : List Bool} : boolKey v.length (flatnonzero v) = v := by
  apply List.ext_getElem (by simp [boolKey])
  intro i h1 h2
  simp only [boolKey, List.getElem_map, List.getElem_range]
  rw [Bool.eq_iff_iff, List.contains_iff_mem]
  simp [flatnonzero, h2]

theorem flatnonzero_boolKey_sorted {a : List Nat} (hs : a.Pairwise (· < ·)) (hn : ∀ x ∈ a, x < n) :
    flatnonzero (boolKey n a) = a := by
  have hsort : (flatnonzero (boolKey n a)).Pairwise (· < ·) := List.pairwise_lt_range.sublist List.filter_sublist
  have hmem : ∀ x, x ∈ flatnonzero (boolKey n a) ↔ x ∈ a := by
    intro x
    simp only [flatnonzero, boolKey_length, List.mem_filter, List.mem_range, List.getD_eq_getElem?_getD]
    simp only [boolKey, List.getElem?_map]
    constructor
    · rintro ⟨h1, h2⟩
      rw [List.getElem?_range h1] at h2
      simpa using h2
    · intro hx
      refine ⟨hn x hx, ?_⟩
      rw [List.getElem?_range (hn x hx)]
      simpa using hx
  have hp : (flatnonzero (boolKey n a)).Perm a :=
    (List.perm_ext_iff_of_nodup (hsort.imp Nat.ne_of_lt) (hs.imp Nat.ne_of_lt)).2 hmem
  exact hp.eq_of_pairwise (fun a b _ _ h1 h2 => by omega) hsort hs

/-! ### the cache -/

/-- Every cache entry maps a key to the representative of its orbit. -/
def CacheOk (n : Nat) (syms : List (List Nat)) (c : Cache) : Prop :=
  ∀ k m, c.lookup k = some m → k.length = n ∧ m = repOf syms k

theorem lookup_append_map {imgs : List (List Bool)} {mon : List Nat} {c : Cache} {k : List Bool} {m : List Nat}
    (h : (imgs.map (fun k => (k, mon)) ++ c).lookup k = some m) : (k ∈ imgs ∧ m = mon) ∨ c.lookup k = some m := by
  induction imgs with
  | nil => right; simpa using h
  | cons a imgs ih =>
    simp only [List.map_cons, List.cons_append, List.lookup_cons] at h
    by_cases hk : k = a
    · subst hk
      simp only [BEq.rfl, Option.some.injEq] at h
      left; exact ⟨by simp, h.symm⟩
    · have : (k == a) = false := by simp [hk]
      simp only [this] at h
      rcases ih h with h' | h'
      · exact .inl ⟨by simp [h'.1], h'.2⟩
      · exact .inr h'

theorem cacheOk_step (h : IsGroup n syms) (hl : syms.length ≠ 1) {c : Cache} (hc : CacheOk n syms c) (a : List Nat) :
    CacheOk n syms (atomicMonomial n syms c a).1 ∧ (atomicMonomial n syms c a).2 = repOf syms (boolKey n a) := by
  unfold atomicMonomial
  simp only
  split
  · rename_i m hm
    exact ⟨hc, (hc _ _ hm).2⟩
  · rw [if_neg hl]
    refine ⟨?_, rfl⟩
    intro k m hk
    rcases lookup_append_map hk with ⟨h1, h2⟩ | h1
    · rw [mem_sortBy, List.mem_map] at h1
      obtain ⟨r, hr, rfl⟩ := h1
      have hso : SameOrbit syms (boolKey n a) (image (boolKey n a) r) := ⟨r, hr, rfl⟩
      have hlen := sameOrbit_length h hso
      refine ⟨hlen, ?_⟩
      rw [h2]
      unfold repOf
      rw [best_eq_of_sameOrbit h (boolKey_length n a) hlen hso]
    · exact hc k m h1

theorem cacheOk_after (h : IsGroup n syms) (hl : syms.length ≠ 1) (history : List (List Nat)) :
    CacheOk n syms (cacheAfter n syms history) := by
  unfold cacheAfter
  have : ∀ c, CacheOk n syms c → CacheOk n syms (history.foldl (fun c a => (atomicMonomial n syms c a).1) c) := by
    induction history with
    | nil => exact fun c hc => hc
    | cons a t ih => exact fun c hc => ih _ (cacheOk_step h hl hc a).1
  exact this [] (by intro k m hk; simp at hk)

end Verif.Orbits

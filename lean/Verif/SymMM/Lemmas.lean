import Mathlib.Data.Nat.Find
import Verif.SymMM.Spec
import Verif.Orbits.Lemmas
namespace Verif.SymMM
open Verif.Common Verif.Orbits

variable {N : Nat} {mm : List Nat} {perms : List (List Nat)}

theorem permCell_id {x : Nat} (hx : x < N * N) : permCell N (List.range N) x = x := by
  have h0 : 0 < N := by
    rcases Nat.eq_zero_or_pos N with h | h
    · subst h; omega
    · exact h
  have h1 : x / N < N := Nat.div_lt_of_lt_mul hx
  have h2 : x % N < N := Nat.mod_lt _ h0
  simp [permCell, List.getD_eq_getElem?_getD, List.getElem?_range h1, List.getElem?_range h2]
  rw [Nat.mul_comm]
  exact Nat.div_add_mod x N

theorem row_getD_lt (hg : IsGroup N (List.range N :: perms)) {p : List Nat} (hp : p ∈ List.range N :: perms) {i : Nat}
    (hi : i < N) : p.getD i 0 < N := by
  have hl := hg.row_length hp
  rw [List.getD_eq_getElem _ _ (by omega)]
  exact hg.row_lt hp (List.getElem_mem _)

theorem permCell_lt (hg : IsGroup N (List.range N :: perms)) {p : List Nat} (hp : p ∈ List.range N :: perms) {x : Nat}
    (hx : x < N * N) : permCell N p x < N * N := by
  have h0 : 0 < N := by
    rcases Nat.eq_zero_or_pos N with h | h
    · subst h; omega
    · exact h
  have h1 := row_getD_lt hg hp (Nat.div_lt_of_lt_mul hx)
  have h2 := row_getD_lt hg hp (Nat.mod_lt x h0)
  unfold permCell
  calc p.getD (x / N) 0 * N + p.getD (x % N) 0 < p.getD (x / N) 0 * N + N := by omega
    _ = (p.getD (x / N) 0 + 1) * N := by rw [Nat.add_mul, Nat.one_mul]
    _ ≤ N * N := Nat.mul_le_mul_right _ h1

theorem permCell_comp (hg : IsGroup N (List.range N :: perms)) {r t : List Nat} (ht : t ∈ List.range N :: perms)
    {x : Nat} (hx : x < N * N) :
    permCell N (t.map fun k => r.getD k 0) x = permCell N r (permCell N t x) := by
  have h0 : 0 < N := by
    rcases Nat.eq_zero_or_pos N with h | h
    · subst h; omega
    · exact h
  have hl := hg.row_length ht
  have h1 : x / N < t.length := by rw [hl]; exact Nat.div_lt_of_lt_mul hx
  have h2 : x % N < t.length := by rw [hl]; exact Nat.mod_lt _ h0
  have h3 : t.getD (x % N) 0 < N := row_getD_lt hg ht (by omega)
  have hd : permCell N t x / N = t.getD (x / N) 0 := by
    unfold permCell
    rw [Nat.mul_comm, Nat.mul_add_div h0, Nat.div_eq_of_lt h3, Nat.add_zero]
  have hm : permCell N t x % N = t.getD (x % N) 0 := by
    unfold permCell
    rw [Nat.mul_comm, Nat.mul_add_mod, Nat.mod_eq_of_lt h3]
  have e : permCell N r (permCell N t x) = r.getD (permCell N t x / N) 0 * N + r.getD (permCell N t x % N) 0 := rfl
  rw [e, hd, hm]
  unfold permCell
  simp [List.getD_eq_getElem?_getD, List.getElem?_map, List.getElem?_eq_getElem h1, List.getElem?_eq_getElem h2]

theorem Consistent.resp (h : Consistent N mm perms) {p : List Nat} (hp : p ∈ List.range N :: perms) {x y : Nat}
    (hx : x < N * N) (hy : y < N * N) (e : mm[x]? = mm[y]?) : mm[permCell N p x]? = mm[permCell N p y]? := by
  rcases List.mem_cons.1 hp with rfl | hp
  · rw [permCell_id hx, permCell_id hy]; exact e
  · exact h.respects p hp x y hx hy e

theorem related_of_eq {x y : Nat} (hx : x < N * N) (e : mm[x]? = mm[y]?) : Related N mm perms x y :=
  ⟨_, List.mem_cons_self, by rw [permCell_id hx]; exact e⟩

theorem related_perm {p : List Nat} (hp : p ∈ List.range N :: perms) {x : Nat} :
    Related N mm perms x (permCell N p x) := ⟨p, hp, rfl⟩

theorem Consistent.trans (h : Consistent N mm perms) {x y z : Nat} (hx : x < N * N) (hy : y < N * N)
    (h1 : Related N mm perms x y) (h2 : Related N mm perms y z) : Related N mm perms x z := by
  obtain ⟨t, ht, e1⟩ := h1
  obtain ⟨r, hr, e2⟩ := h2
  refine ⟨_, h.group.comp r hr t ht, ?_⟩
  rw [permCell_comp h.group ht hx, ← e2]
  exact h.resp hr (permCell_lt h.group ht hx) hy e1

theorem Consistent.symm (h : Consistent N mm perms) {x y : Nat} (hx : x < N * N) (hy : y < N * N)
    (h1 : Related N mm perms x y) : Related N mm perms y x := by
  obtain ⟨r, hr, e1⟩ := h1
  obtain ⟨u, hu, e⟩ := h.group.inv r hr
  refine ⟨u, hu, ?_⟩
  have e2 := h.resp hu (permCell_lt h.group hr hx) hy e1
  rw [← permCell_comp h.group hr hx, e, permCell_id hx] at e2
  exact e2.symm

/-- `x` carries the least value of its orbit. -/
def MinCell (N : Nat) (mm : List Nat) (perms : List (List Nat)) (x : Nat) : Prop :=
  ∀ y, y < N * N → Related N mm perms x y → mm.getD x 0 ≤ mm.getD y 0

theorem getD_eq_iff (h : Consistent N mm perms) {x y : Nat} (hx : x < N * N) (hy : y < N * N) :
    mm.getD x 0 = mm.getD y 0 ↔ mm[x]? = mm[y]? := by
  rw [List.getD_eq_getElem _ _ (by rw [h.size]; exact hx), List.getD_eq_getElem _ _ (by rw [h.size]; exact hy),
    List.getElem?_eq_getElem (by rw [h.size]; exact hx), List.getElem?_eq_getElem (by rw [h.size]; exact hy)]
  simp

theorem exists_minCell (h : Consistent N mm perms) {x : Nat} (hx : x < N * N) :
    ∃ m, m < N * N ∧ Related N mm perms x m ∧ MinCell N mm perms m := by
  classical
  have hex : ∃ v, ∃ y, y < N * N ∧ Related N mm perms x y ∧ mm.getD y 0 = v :=
    ⟨_, x, hx, related_of_eq hx rfl, rfl⟩
  obtain ⟨y, hy, hr, e⟩ := Nat.find_spec hex
  refine ⟨y, hy, hr, ?_⟩
  intro z hz hyz
  rw [e]
  exact Nat.find_min' hex ⟨z, hz, h.trans hx hy hr hyz, rfl⟩

theorem minCell_of_eq (h : Consistent N mm perms) {x y : Nat} (hx : x < N * N) (hy : y < N * N)
    (e : mm[x]? = mm[y]?) (hm : MinCell N mm perms x) : MinCell N mm perms y := by
  intro z hz hyz
  rw [← (getD_eq_iff h hx hy).2 e]
  exact hm z hz (h.trans hx hy (related_of_eq hx e) hyz)

theorem minCell_unique (h : Consistent N mm perms) {x y : Nat} (hx : x < N * N) (hy : y < N * N)
    (hr : Related N mm perms x y) (hmx : MinCell N mm perms x) (hmy : MinCell N mm perms y) : mm[x]? = mm[y]? := by
  rw [← getD_eq_iff h hx hy]
  have := hmx y hy hr
  have := hmy x hx (h.symm hx hy hr)
  omega

/-- Invariant of the loop after the permutations in `done`. -/
structure Inv (N : Nat) (mm : List Nat) (perms done : List (List Nat)) (s : St) : Prop where
  linv : s.inverse.length = N * N
  lrepr : s.repr.length = s.flatPos.length
  ltrk : s.tracker.length = (npUnique mm).length
  idx : s.newIdx = List.range s.flatPos.length
  same : ∀ x y, x < N * N → y < N * N → mm[x]? = mm[y]? → s.inverse.getD x 0 = s.inverse.getD y 0
  rel : ∀ x y, x < N * N → y < N * N → s.inverse.getD x 0 = s.inverse.getD y 0 → Related N mm perms x y
  cls : ∀ x, x < N * N → s.inverse.getD x 0 < s.flatPos.length
  rep : ∀ k, k < s.flatPos.length → s.flatPos.getD k 0 < N * N ∧ s.inverse.getD (s.flatPos.getD k 0) 0 = k
  repr : ∀ k, k < s.flatPos.length → s.repr.getD k 0 = mm.getD (s.flatPos.getD k 0) 0
  trk : ∀ x, x < N * N → s.tracker.getD ((npUnique mm).idxOf (mm.getD x 0)) 0 = s.inverse.getD x 0
  minle : ∀ x y, x < N * N → y < N * N → MinCell N mm perms x → Related N mm perms x y →
    s.inverse.getD x 0 ≤ s.inverse.getD y 0
  minrep : ∀ x, x < N * N → MinCell N mm perms x → mm[s.flatPos.getD (s.inverse.getD x 0) 0]? = mm[x]?
  minord : ∀ x y, x < N * N → y < N * N → MinCell N mm perms x → MinCell N mm perms y →
    mm.getD x 0 < mm.getD y 0 → s.inverse.getD x 0 < s.inverse.getD y 0
  done : ∀ p ∈ done, ∀ k, k < s.flatPos.length →
    MinCell N mm perms (permCell N p (s.flatPos.getD k 0)) → MinCell N mm perms (s.flatPos.getD k 0)

theorem getD_npUniqueInv {l : List Nat} {k : Nat} (hk : k < l.length) :
    (npUniqueInv l).getD k 0 = (npUnique l).idxOf (l.getD k 0) := by
  have : k < (npUniqueInv l).length := by simpa [npUniqueInv] using hk
  rw [List.getD_eq_getElem _ _ this, List.getD_eq_getElem _ _ hk]
  simp [npUniqueInv]

theorem getD_npUniquePos {l : List Nat} {k : Nat} (hk : k < (npUnique l).length) :
    (npUniquePos l).getD k 0 = l.idxOf ((npUnique l).getD k 0) := by
  have : k < (npUniquePos l).length := by simpa [npUniquePos] using hk
  rw [List.getD_eq_getElem _ _ this, List.getD_eq_getElem _ _ hk]
  simp [npUniquePos]

theorem getD_mem {l : List Nat} {k : Nat} (hk : k < l.length) : l.getD k 0 ∈ l := by
  rw [List.getD_eq_getElem _ _ hk]; exact List.getElem_mem _

theorem getD_idxOf {l : List Nat} {a : Nat} (ha : a ∈ l) : l.getD (l.idxOf a) 0 = a := by
  rw [List.getD_eq_getElem _ _ (List.idxOf_lt_length_iff.2 ha)]
  exact List.getElem_idxOf _

theorem idxOf_getD {l : List Nat} (hnd : l.Nodup) {k : Nat} (hk : k < l.length) : l.idxOf (l.getD k 0) = k := by
  rw [List.getD_eq_getElem _ _ hk]
  exact hnd.idxOf_getElem k hk

theorem inv_init (h : Consistent N mm perms) : Inv N mm perms [] (St.init mm) := by
  have hK : ∀ x, x < N * N → (St.init mm).inverse.getD x 0 = (npUnique mm).idxOf (mm.getD x 0) := by
    intro x hx
    exact getD_npUniqueInv (by rw [h.size]; exact hx)
  have hmem : ∀ x, x < N * N → mm.getD x 0 ∈ npUnique mm := fun x hx =>
    mem_npUnique.2 (getD_mem (by rw [h.size]; exact hx))
  have hlen : (St.init mm).flatPos.length = (npUnique mm).length := by simp [St.init, npUniquePos]
  have hrep : ∀ k, k < (npUnique mm).length → (St.init mm).flatPos.getD k 0 < N * N ∧
      mm.getD ((St.init mm).flatPos.getD k 0) 0 = (npUnique mm).getD k 0 := by
    intro k hk
    have e : (St.init mm).flatPos.getD k 0 = mm.idxOf ((npUnique mm).getD k 0) := getD_npUniquePos hk
    have hm : (npUnique mm).getD k 0 ∈ mm := mem_npUnique.1 (getD_mem hk)
    rw [e]
    exact ⟨by rw [← h.size]; exact List.idxOf_lt_length_iff.2 hm, getD_idxOf hm⟩
  refine
    { linv := by simp [St.init, npUniqueInv, h.size]
      lrepr := by rw [hlen]; rfl
      ltrk := by simp [St.init]
      idx := by rw [hlen]; rfl
      same := ?_, rel := ?_, cls := ?_, rep := ?_, repr := ?_, trk := ?_, minle := ?_, minrep := ?_, minord := ?_
      done := by simp }
  · intro x y hx hy e
    rw [hK x hx, hK y hy, (getD_eq_iff h hx hy).2 e]
  · intro x y hx hy e
    rw [hK x hx, hK y hy, idxOf_eq_iff (hmem x hx), getD_eq_iff h hx hy] at e
    exact related_of_eq hx e
  · intro x hx
    rw [hK x hx, hlen]
    exact List.idxOf_lt_length_iff.2 (hmem x hx)
  · intro k hk
    rw [hlen] at hk
    obtain ⟨h1, h2⟩ := hrep k hk
    refine ⟨h1, ?_⟩
    rw [hK _ h1, h2, idxOf_getD (npUnique_nodup mm) hk]
  · intro k hk
    rw [hlen] at hk
    rw [(hrep k hk).2]
    rfl
  · intro x hx
    rw [hK x hx]
    have := List.idxOf_lt_length_iff.2 (hmem x hx)
    rw [List.getD_eq_getElem _ _ (by simpa [St.init] using this)]
    simp [St.init]
  · intro x y hx hy hm hr
    rw [hK x hx, hK y hy, idxOf_le_iff (npUnique_sorted mm) (hmem x hx) (hmem y hy)]
    exact hm y hy hr
  · intro x hx _
    have hk := List.idxOf_lt_length_iff.2 (hmem x hx)
    rw [hK x hx]
    obtain ⟨h1, h2⟩ := hrep _ hk
    rw [← getD_eq_iff h h1 hx, h2, getD_idxOf (hmem x hx)]
  · intro x y hx hy _ _ hlt
    rw [hK x hx, hK y hy, idxOf_lt_iff (npUnique_sorted mm) (hmem x hx) (hmem y hy)]
    exact hlt

theorem inv_step (h : Consistent N mm perms) {done : List (List Nat)} {s : St} (hs : Inv N mm perms done s) {p : List Nat}
    (hp : p ∈ perms) : ∃ s', step N s p = some s' ∧ Inv N mm perms (p :: done) s' := by
  have hpG : p ∈ List.range N :: perms := List.mem_cons_of_mem _ hp
  -- the assertion
  have hassert : s.newIdx = s.flatPos.map (fun x => s.inverse.getD x 0) := by
    rw [hs.idx]
    apply List.ext_getElem (by simp)
    intro k h1 h2
    have hk : k < s.flatPos.length := by simpa using h1
    have := (hs.rep k hk).2
    rw [List.getD_eq_getElem _ _ hk] at this
    simp only [List.getElem_range, List.getElem_map]
    exact this.symm
  set f := List.zipWith min s.newIdx (s.flatPos.map fun x => s.inverse.getD (permCell N p x) 0) with hf
  have hfl : f.length = s.flatPos.length := by simp [hf, hs.idx]
  set K := fun x => s.inverse.getD x 0 with hKdef
  set R := fun k => s.flatPos.getD k 0 with hRdef
  have hfk : ∀ k, k < s.flatPos.length → f.getD k 0 = min k (K (permCell N p (R k))) := by
    intro k hk
    rw [List.getD_eq_getElem _ _ (by omega)]
    simp only [hf, hs.idx, List.getElem_zipWith, List.getElem_range, List.getElem_map, hKdef, hRdef,
      List.getD_eq_getElem _ _ hk]
  have hfle : ∀ k, k < s.flatPos.length → f.getD k 0 ≤ k := by
    intro k hk; rw [hfk k hk]; exact Nat.min_le_left _ _
  have hR : ∀ k, k < s.flatPos.length → R k < N * N := fun k hk => (hs.rep k hk).1
  have hKR : ∀ k, k < s.flatPos.length → K (R k) = k := fun k hk => (hs.rep k hk).2
  -- `f` at the class of a least cell
  have hRrel : ∀ x, x < N * N → Related N mm perms (R (K x)) x := by
    intro x hx
    have hk := hs.cls x hx
    exact hs.rel _ _ (hR _ hk) hx (hKR _ hk)
  have hfge : ∀ x y, x < N * N → y < N * N → MinCell N mm perms x → Related N mm perms x y → K x ≤ f.getD (K y) 0 := by
    intro x y hx hy hm hr
    have hk := hs.cls y hy
    rw [hfk _ hk]
    refine Nat.le_min.2 ⟨hs.minle x y hx hy hm hr, ?_⟩
    have hRk := hR _ hk
    have h1 := permCell_lt h.group hpG hRk
    apply hs.minle x _ hx h1 hm
    refine h.trans hx hRk ?_ (related_perm hpG)
    exact h.trans hx hy hr (h.symm hRk hy (hRrel y hy))
  have hfmin : ∀ x, x < N * N → MinCell N mm perms x → f.getD (K x) 0 = K x := by
    intro x hx hm
    have h1 := hfge x x hx hx hm (related_of_eq hx rfl)
    have h2 := hfle (K x) (hs.cls x hx)
    omega
  have hfmem : ∀ k, k < s.flatPos.length → f.getD k 0 ∈ f := fun k hk => getD_mem (by omega)
  have hidxmin : ∀ x, x < N * N → MinCell N mm perms x → f.idxOf (K x) = K x := by
    intro x hx hm
    have hk := hs.cls x hx
    have hin : K x ∈ f := by
      have := hfmem (K x) hk
      rwa [hfmin x hx hm] at this
    have hj := List.idxOf_lt_length_iff.2 hin
    have e := getD_idxOf hin
    have hle := hfle (f.idxOf (K x)) (by omega)
    rw [e] at hle
    have : f.idxOf (K x) ≤ K x := by
      by_contra hgt
      have hlt : K x < f.idxOf (K x) := by omega
      have := List.not_of_lt_findIdx (p := (· == K x)) (xs := f) hlt
      rw [List.getElem_eq_getD (fallback := 0), hfmin x hx hm] at this
      simp at this
    omega
  -- the class f(k) consists of related cells
  have hfrel : ∀ x, x < N * N → ∃ z, z < N * N ∧ f.getD (K x) 0 = K z ∧ Related N mm perms x z := by
    intro x hx
    have hk := hs.cls x hx
    rw [hfk _ hk]
    rcases Nat.le_total (K x) (K (permCell N p (R (K x)))) with h1 | h1
    · exact ⟨x, hx, Nat.min_eq_left h1, related_of_eq hx rfl⟩
    · refine ⟨_, permCell_lt h.group hpG (hR _ hk), Nat.min_eq_right h1, ?_⟩
      exact h.trans hx (hR _ hk) (h.symm (hR _ hk) hx (hRrel x hx)) (related_perm hpG)
  -- processed permutation
  have hdone : ∀ j, j < s.flatPos.length → MinCell N mm perms (permCell N p (R j)) → f.idxOf (f.getD j 0) = j →
      MinCell N mm perms (R j) := by
    intro j hj hm hij
    have hRj := hR j hj
    have hx := permCell_lt h.group hpG hRj
    have h1 : K (permCell N p (R j)) ≤ j := by
      have := hs.minle _ _ hx hRj hm (h.symm hRj hx (related_perm hpG))
      have e := hKR j hj
      simp only [hKdef] at e this ⊢
      omega
    have h2 : f.getD j 0 = K (permCell N p (R j)) := by rw [hfk j hj]; exact Nat.min_eq_right h1
    rw [h2, hidxmin _ hx hm] at hij
    have h3 := hs.minrep _ hx hm
    have h4 : s.flatPos.getD (s.inverse.getD (permCell N p (R j)) 0) 0 = R j := by
      show R (K (permCell N p (R j))) = R j
      rw [hij]
    rw [h4] at h3
    exact minCell_of_eq h hx hRj h3.symm hm
  by_cases hmerge : (npUnique f).length < s.newIdx.length
  · refine ⟨_, by unfold step; rw [if_pos hassert]; simp only [← hf]; rw [if_pos hmerge], ?_⟩
    set u := npUnique f with hu
    have hposl : (npUniquePos f).length = u.length := by simp [npUniquePos, hu]
    have hK' : ∀ x, x < N * N →
        (s.inverse.map fun k => (npUniqueInv f).getD k 0).getD x 0 = u.idxOf (f.getD (K x) 0) := by
      intro x hx
      have hxl : x < s.inverse.length := by rw [hs.linv]; exact hx
      rw [List.getD_eq_getElem _ _ (by simpa using hxl)]
      simp only [List.getElem_map]
      have e : s.inverse[x] = K x := by simp only [hKdef]; rw [List.getD_eq_getElem _ _ hxl]
      rw [e, getD_npUniqueInv (by rw [hfl]; exact hs.cls x hx)]
    have hpos : ∀ k, k < u.length → (npUniquePos f).getD k 0 = f.idxOf (u.getD k 0) ∧
        f.idxOf (u.getD k 0) < s.flatPos.length ∧ f.getD (f.idxOf (u.getD k 0)) 0 = u.getD k 0 := by
      intro k hk
      have hin : u.getD k 0 ∈ f := mem_npUnique.1 (getD_mem hk)
      exact ⟨getD_npUniquePos hk, by rw [← hfl]; exact List.idxOf_lt_length_iff.2 hin, getD_idxOf hin⟩
    have hR' : ∀ k, k < u.length →
        ((npUniquePos f).map fun k => s.flatPos.getD k 0).getD k 0 = R (f.idxOf (u.getD k 0)) := by
      intro k hk
      rw [List.getD_eq_getElem _ _ (by simpa [hposl] using hk)]
      simp only [List.getElem_map]
      have := (hpos k hk).1
      rw [List.getD_eq_getElem _ _ (by omega)] at this
      rw [this]
    have hmemu : ∀ x, x < N * N → f.getD (K x) 0 ∈ u := fun x hx => mem_npUnique.2 (hfmem _ (hs.cls x hx))
    have hmono := @idxOf_le_iff u (npUnique_sorted f)
    refine
      { linv := by simpa using hs.linv
        lrepr := by simp
        ltrk := by simpa using hs.ltrk
        idx := by simp [hposl]
        same := ?_, rel := ?_, cls := ?_, rep := ?_, repr := ?_, trk := ?_, minle := ?_, minrep := ?_, minord := ?_
        done := ?_ }
    all_goals simp only
    · intro x y hx hy e
      rw [hK' x hx, hK' y hy]
      have : K x = K y := hs.same x y hx hy e
      rw [this]
    · intro x y hx hy e
      rw [hK' x hx, hK' y hy, idxOf_eq_iff (hmemu x hx)] at e
      obtain ⟨z, hz, e1, r1⟩ := hfrel x hx
      obtain ⟨w, hw, e2, r2⟩ := hfrel y hy
      have hzw := hs.rel z w hz hw (by rw [e1, e2] at e; exact e)
      exact h.trans hx hz r1 (h.trans hz hw hzw (h.symm hy hw r2))
    · intro x hx
      rw [hK' x hx]
      simp only [List.length_map, hposl]
      exact List.idxOf_lt_length_iff.2 (hmemu x hx)
    · intro k hk
      simp only [List.length_map, hposl] at hk
      obtain ⟨h1, h2, h3⟩ := hpos k hk
      rw [hR' k hk]
      refine ⟨hR _ h2, ?_⟩
      rw [hK' _ (hR _ h2), hKR _ h2, h3]
      exact idxOf_getD (npUnique_nodup f) hk
    · intro k hk
      simp only [List.length_map, hposl] at hk
      obtain ⟨h1, h2, h3⟩ := hpos k hk
      rw [hR' k hk, List.getD_eq_getElem _ _ (by simpa [hposl] using hk)]
      simp only [List.getElem_map]
      rw [List.getD_eq_getElem _ _ (by omega)] at h1
      rw [h1]
      exact hs.repr _ h2
    · intro x hx
      rw [hK' x hx]
      have hc : (npUnique mm).idxOf (mm.getD x 0) < (npUnique mm).length :=
        List.idxOf_lt_length_iff.2 (mem_npUnique.2 (getD_mem (by rw [h.size]; exact hx)))
      have hc' : (npUnique mm).idxOf (mm.getD x 0) < s.tracker.length := by rw [hs.ltrk]; exact hc
      have := hs.trk x hx
      rw [List.getD_eq_getElem _ _ hc'] at this
      rw [List.getD_eq_getElem _ _ (by simpa using hc')]
      simp only [List.getElem_map]
      rw [this, getD_npUniqueInv (by rw [hfl]; exact hs.cls x hx)]
    · intro x y hx hy hm hr
      rw [hK' x hx, hK' y hy, hmono (hmemu x hx) (hmemu y hy), hfmin x hx hm]
      exact hfge x y hx hy hm hr
    · intro x hx hm
      have hin := hmemu x hx
      rw [hK' x hx, hR' _ (List.idxOf_lt_length_iff.2 hin), getD_idxOf hin, hfmin x hx hm, hidxmin x hx hm]
      exact hs.minrep x hx hm
    · intro x y hx hy hmx hmy hlt
      rw [hK' x hx, hK' y hy, idxOf_lt_iff (npUnique_sorted f) (hmemu x hx) (hmemu y hy), hfmin x hx hmx, hfmin y hy hmy]
      exact hs.minord x y hx hy hmx hmy hlt
    · intro q hq k hk
      simp only [List.length_map, hposl] at hk
      obtain ⟨h1, h2, h3⟩ := hpos k hk
      rw [hR' k hk]
      intro hm
      rcases List.mem_cons.1 hq with rfl | hq
      · exact hdone _ h2 hm (by rw [h3])
      · exact hs.done q hq _ h2 hm
  · have hnd : f.Nodup := by
      apply npUnique_length_eq
      have h1 := npUnique_length_le f
      rw [hs.idx] at hmerge
      simp only [List.length_range] at hmerge
      omega
    have hrange : f = List.range s.flatPos.length := by
      rw [← hfl]
      apply eq_range_of_le hnd
      intro k hk
      have := hfle k (by omega)
      rwa [List.getD_eq_getElem _ _ hk] at this
    refine ⟨{ s with newIdx := f }, by unfold step; rw [if_pos hassert]; simp only [← hf]; rw [if_neg hmerge], ?_⟩
    refine { hs with idx := hrange, done := ?_ }
    intro q hq k hk hm
    rcases List.mem_cons.1 hq with rfl | hq
    · refine hdone k hk hm (idxOf_getD hnd (by simp only at hk; omega))
    · exact hs.done q hq _ hk hm

theorem inv_loop (h : Consistent N mm perms) (todo : List (List Nat)) (ht : ∀ p ∈ todo, p ∈ perms) {done : List (List Nat)}
    {s : St} (hs : Inv N mm perms done s) :
    ∃ s', todo.foldlM (step N) s = some s' ∧ Inv N mm perms (todo.reverse ++ done) s' := by
  induction todo generalizing done s with
  | nil => exact ⟨s, rfl, by simpa using hs⟩
  | cons p t ih =>
    obtain ⟨s1, e1, h1⟩ := inv_step h hs (ht p (by simp))
    obtain ⟨s2, e2, h2⟩ := ih (fun q hq => ht q (by simp [hq])) h1
    refine ⟨s2, ?_, by simpa using h2⟩
    simp only [List.foldlM_cons, e1]
    exact e2

/-- At the end every representative is the least one. -/
theorem rep_min (h : Consistent N mm perms) {s : St} {done : List (List Nat)} (hd : ∀ p ∈ perms, p ∈ done)
    (hs : Inv N mm perms done s) {k : Nat} (hk : k < s.flatPos.length) : MinCell N mm perms (s.flatPos.getD k 0) := by
  have hx := (hs.rep k hk).1
  obtain ⟨m, hm, ⟨p, hp, e⟩, hmin⟩ := exists_minCell h hx
  have hpx := permCell_lt h.group hp hx
  have hmin' := minCell_of_eq h hm hpx e.symm hmin
  rcases List.mem_cons.1 hp with rfl | hp
  · rwa [permCell_id hx] at hmin'
  · exact hs.done p (hd p hp) k hk hmin'

end Verif.SymMM

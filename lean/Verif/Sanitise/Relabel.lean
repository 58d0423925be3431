import Verif.Sanitise.Cache
import Verif.SdpEnd.Capacity
/-!
Relabelling the copies of a moment relabels its factors.
-/
namespace Verif.Sanitise
open Verif.Common Verif.Scenario Verif.Orbits Verif.Components Verif.Moment Verif.State Verif.EndToEnd
open Verif.Symmetry (lexorderSymmetries)
open Verif.CollinsGisin
open Verif.SdpEnd (copiesOf capacity_of_copies)

variable {S : Scenario}

theorem mem_boolKey {n : Nat} {a : List Nat} {i : Nat} (hi : i < n) : (boolKey n a).getD i false = true ↔ i ∈ a := by
  unfold boolKey
  rw [List.getD_eq_getElem _ _ (by simpa using hi)]
  simp

theorem boolKey_ext {n : Nat} {a b : List Nat} (h : ∀ i < n, i ∈ a ↔ i ∈ b) : boolKey n a = boolKey n b := by
  unfold boolKey
  apply List.map_congr_left
  intro k hk
  have := h k (List.mem_range.1 hk)
  by_cases hka : k ∈ a
  · simp [hka, this.1 hka]
  · have : k ∉ b := fun hb => hka (this.2 hb)
    simp [hka, this]

theorem boolKey_eq_iff {n : Nat} {a b : List Nat} : boolKey n a = boolKey n b ↔ ∀ i < n, i ∈ a ↔ i ∈ b := by
  constructor
  · intro h i hi
    rw [← mem_boolKey hi, h, mem_boolKey hi]
  · exact boolKey_ext

/-- The set obtained by relabelling: operator `i` belongs to it when the operator it is sent to belongs to the given set. -/
theorem image_boolKey {n : Nat} {a b : List Nat} {r : List Nat} (hr : r.Perm (List.range n)) :
    image (boolKey n a) r = boolKey n b ↔ ∀ i < n, i ∈ b ↔ r.getD i 0 ∈ a := by
  have hl : r.length = n := by simpa using hr.length_eq
  have hlt : ∀ i < n, r.getD i 0 < n := by
    intro i hi
    rw [List.getD_eq_getElem _ _ (by omega)]
    exact List.mem_range.1 (hr.mem_iff.1 (List.getElem_mem _))
  have himg : ∀ i < n, (image (boolKey n a) r).getD i false = (boolKey n a).getD (r.getD i 0) false := by
    intro i hi
    unfold image
    rw [List.getD_eq_getElem _ _ (by simpa using (by omega : i < r.length)), List.getElem_map, List.getD_eq_getElem r _ (by omega)]
  constructor
  · intro h i hi
    rw [← mem_boolKey (n := n) hi, ← h, himg i hi, mem_boolKey (hlt i hi)]
  · intro h
    apply List.ext_getElem
    · rw [image_length, boolKey_length, hl]
    · intro i h1 h2
      have hi : i < n := by simpa [boolKey_length] using h2
      have e1 : (image (boolKey n a) r)[i] = (image (boolKey n a) r).getD i false := by rw [List.getD_eq_getElem _ _ h1]
      have e2 : (boolKey n b)[i] = (boolKey n b).getD i false := by rw [List.getD_eq_getElem _ _ h2]
      rw [e1, e2, himg i hi, Bool.eq_iff_iff, mem_boolKey (hlt i hi), mem_boolKey hi]
      exact (h i hi).symm

theorem row_lt {r : List Nat} (hr : r ∈ lexorderSymmetries S) {i : Nat} (hi : i < S.lexorder.length) : r.getD i 0 < S.lexorder.length := by
  have hp := (symmetries_isGroup S).perm r hr
  have hl : r.length = S.lexorder.length := by simpa using hp.length_eq
  rw [List.getD_eq_getElem _ _ (by omega)]
  exact List.mem_range.1 (hp.mem_iff.1 (List.getElem_mem _))

/-- A relabelling keeps touching operators touching. -/
theorem touch_row {r : List Nat} (hr : r ∈ lexorderSymmetries S) {i j : Nat} (h : Touch S i j) : Touch S (r.getD i 0) (r.getD j 0) := by
  obtain ⟨g, hg, hi⟩ := (Verif.Symmetry.C14_symmetries_are_relabellings S r).1 hr
  obtain ⟨x, y, hx, hy, hxy⟩ := h
  have get : ∀ {i : Nat} {x : Op}, S.lexorder[i]? = some x → S.lexorder[r.getD i 0]? = some (Verif.Symmetry.act g x) ∧ Valid S x := by
    intro i x hx
    obtain ⟨hlt, rfl⟩ := List.getElem?_eq_some_iff.1 hx
    obtain ⟨j, hj, e⟩ := hi.2 i hlt
    rw [hx] at e
    have : r.getD i 0 = j := by rw [List.getD_eq_getElem?_getD, hj]; rfl
    rw [this]
    exact ⟨e, Verif.Symmetry.lex_valid S hlt⟩
  refine ⟨_, _, (get hx).1, (get hy).1, ?_⟩
  rcases hxy with h | ⟨s, c, hc, h1, h2⟩
  · exact Or.inl (by simp [Verif.Symmetry.act, h])
  · refine Or.inr ⟨s, g s c, ?_, by simp [Verif.Symmetry.act, h1], by simp [Verif.Symmetry.act, h2]⟩
    obtain ⟨hs, hle⟩ : s < S.nSources ∧ c ≤ max (S.level s) 1 := by
      have hlen := (get hx).2.copies_len
      obtain ⟨hs, e⟩ := List.getElem?_eq_some_iff.1 h1
      have hok := (get hx).2.copies_ok s hs
      split at hok
      · exact ⟨by omega, by rw [← e]; exact hok.2⟩
      · omega
    have := (hg s hs).2.1 c (by omega) hle
    omega

theorem joined_row {r : List Nat} (hr : r ∈ lexorderSymmetries S) {a b : List Nat} (hm : ∀ i ∈ b, r.getD i 0 ∈ a) {i j : Nat} (h : Joined S b i j) :
    Joined S a (r.getD i 0) (r.getD j 0) :=
  Relation.ReflTransGen.lift (r := fun i j => i ∈ b ∧ j ∈ b ∧ Touch S i j) (p := fun i j => i ∈ a ∧ j ∈ a ∧ Touch S i j) (fun i => r.getD i 0)
    (fun x y hxy => ⟨hm x hxy.1, hm y hxy.2.1, touch_row hr hxy.2.2⟩) _ _ h

theorem row_inverse {r : List Nat} (hr : r ∈ lexorderSymmetries S) : ∃ u ∈ lexorderSymmetries S, ∀ i < S.lexorder.length,
    u.getD (r.getD i 0) 0 = i ∧ r.getD (u.getD i 0) 0 = i := by
  have hG := symmetries_isGroup S
  obtain ⟨u, hu, e⟩ := hG.inv r hr
  have hp := hG.perm r hr
  have hl : r.length = S.lexorder.length := by simpa using hp.length_eq
  have h1 : ∀ i < S.lexorder.length, u.getD (r.getD i 0) 0 = i := by
    intro i hi
    have := congrArg (fun l => l.getD i 0) e
    have hi' : i < r.length := by omega
    rw [List.getD_eq_getElem?_getD, List.getElem?_map, List.getElem?_eq_getElem hi', List.getD_eq_getElem _ _ (by simpa using hi), List.getElem_range] at this
    rw [List.getD_eq_getElem r _ hi']
    exact this
  refine ⟨u, hu, fun i hi => ⟨h1 i hi, ?_⟩⟩
  have hmem : i ∈ r := hp.mem_iff.2 (List.mem_range.2 hi)
  obtain ⟨k, hk, ek⟩ := List.getElem_of_mem hmem
  have hk' := h1 k (by omega)
  have er : r.getD k 0 = i := by rw [List.getD_eq_getElem _ _ hk, ek]
  rw [er] at hk'
  rw [hk', er]

theorem joined_row_iff {r : List Nat} (hr : r ∈ lexorderSymmetries S) {a b : List Nat} (hb : ∀ x ∈ b, x < S.lexorder.length) (ha : ∀ x ∈ a, x < S.lexorder.length)
    (hm : ∀ i < S.lexorder.length, i ∈ b ↔ r.getD i 0 ∈ a) {i j : Nat} (hi : i < S.lexorder.length) (hj : j < S.lexorder.length) :
    Joined S b i j ↔ Joined S a (r.getD i 0) (r.getD j 0) := by
  constructor
  · exact joined_row hr fun i hi => (hm i (hb i hi)).1 hi
  · intro h
    obtain ⟨u, hu, e⟩ := row_inverse hr
    have := joined_row hu (a := b) (b := a) (fun x hx => by
      have hx' := ha x hx
      rw [hm _ (row_lt hu hx'), (e x hx').2]
      exact hx) h
    rwa [(e i hi).1, (e j hj).1] at this

/-- The factors of a relabelled moment, as sets, are the relabelled factors. -/
theorem factor_keys {r : List Nat} (hr : r ∈ lexorderSymmetries S) (hS : copiesOf S ≤ 254) {a b : List Nat} (ha : ∀ x ∈ a, x < S.lexorder.length) (hb : ∀ x ∈ b, x < S.lexorder.length)
    (hane : a ≠ []) (hbne : b ≠ []) (hm : ∀ i < S.lexorder.length, i ∈ b ↔ r.getD i 0 ∈ a) :
    ((factorize S a).map fun f => image (boolKey S.lexorder.length f) r).Perm ((factorize S b).map (boolKey S.lexorder.length)) := by
  have hp := (symmetries_isGroup S).perm r hr
  obtain ⟨u, hu, eu⟩ := row_inverse hr
  obtain ⟨a1, a2, a3, a4⟩ := C09_factorization S a hane ha (capacity_of_copies S hS ha)
  obtain ⟨b1, b2, b3, b4⟩ := C09_factorization S b hbne hb (capacity_of_copies S hS hb)
  have hfa : ∀ f ∈ factorize S a, ∀ x ∈ f, x < S.lexorder.length := fun f hf x hx => ha x ((a2 f hf).2.subset hx)
  have hfb : ∀ f ∈ factorize S b, ∀ x ∈ f, x < S.lexorder.length := fun f hf x hx => hb x ((b2 f hf).2.subset hx)
  have keyMatch : ∀ f ∈ factorize S a, ∀ f' ∈ factorize S b, (∃ i ∈ f', r.getD i 0 ∈ f) → image (boolKey S.lexorder.length f) r = boolKey S.lexorder.length f' := by
    rintro f hf f' hf' ⟨i, hi, hri⟩
    rw [image_boolKey hp]
    intro j hj
    have hi' := hfb f' hf' i hi
    have h1 : ∀ j, j ∈ b → (j ∈ f' ↔ Joined S b i j) := fun j hjb => b4 f' hf' i hi j hjb
    have h2 : ∀ x, x ∈ a → (x ∈ f ↔ Joined S a (r.getD i 0) x) := fun x hxa => a4 f hf _ hri x hxa
    constructor
    · intro hjf
      have hjb := (b2 f' hf').2.subset hjf
      rw [h2 _ ((hm j hj).1 hjb), ← joined_row_iff hr hb ha hm hi' hj]
      exact (h1 j hjb).1 hjf
    · intro hjf
      have hja := (a2 f hf).2.subset hjf
      have hjb := (hm j hj).2 hja
      rw [h1 j hjb, joined_row_iff hr hb ha hm hi' hj]
      exact (h2 _ hja).1 hjf
  rw [List.perm_ext_iff_of_nodup]
  · intro k
    simp only [List.mem_map]
    constructor
    · rintro ⟨f, hf, rfl⟩
      obtain ⟨x, hx⟩ := List.exists_mem_of_ne_nil f (a2 f hf).1
      have hxa := (a2 f hf).2.subset hx
      have hxl := ha x hxa
      have hib : u.getD x 0 ∈ b := by rw [hm _ (row_lt hu hxl), (eu x hxl).2]; exact hxa
      obtain ⟨f', hf', hif⟩ := List.mem_flatten.1 (b1.mem_iff.2 hib)
      exact ⟨f', hf', (keyMatch f hf f' hf' ⟨_, hif, by rw [(eu x hxl).2]; exact hx⟩).symm⟩
    · rintro ⟨f', hf', rfl⟩
      obtain ⟨i, hi⟩ := List.exists_mem_of_ne_nil f' (b2 f' hf').1
      have hib := (b2 f' hf').2.subset hi
      obtain ⟨f, hf, hif⟩ := List.mem_flatten.1 (a1.mem_iff.2 ((hm i (hb i hib)).1 hib))
      exact ⟨f, hf, keyMatch f hf f' hf' ⟨i, hi, hif⟩⟩
  · refine List.pairwise_map.2 (a3.imp_of_mem ?_)
    intro f f' hf hf' hd e
    obtain ⟨x, hx⟩ := List.exists_mem_of_ne_nil f (a2 f hf).1
    have hxl := hfa f hf x hx
    have h1 := (image_boolKey (a := f) (b := f.map fun x => u.getD x 0) hp).2 (by
      intro i hi
      rw [List.mem_map]
      constructor
      · rintro ⟨y, hy, rfl⟩
        rw [(eu y (hfa f hf y hy)).2]; exact hy
      · intro h
        exact ⟨_, h, (eu i hi).1⟩)
    have h2 := (image_boolKey (a := f') (b := f.map fun x => u.getD x 0) hp).1 (by rw [← e]; exact h1) (u.getD x 0) (row_lt hu hxl)
    have h3 : x ∈ f' := by
      have := h2.1 (List.mem_map.2 ⟨x, hx, rfl⟩)
      rwa [(eu x hxl).2] at this
    exact hd hx h3
  · refine List.pairwise_map.2 (b3.imp_of_mem ?_)
    intro f f' hf hf' hd e
    obtain ⟨x, hx⟩ := List.exists_mem_of_ne_nil f (b2 f hf).1
    exact hd hx ((boolKey_eq_iff.1 e x (hfb f hf x hx)).1 hx)

/-- Reading a relabelled listing of a moment, at any later time, gives the same atoms. -/
theorem monomialOf_relabel {r : List Nat} (hr : r ∈ lexorderSymmetries S) (hS : copiesOf S ≤ 254) {a b : List Nat} (ha : ∀ x ∈ a, x < S.lexorder.length)
    (hb : ∀ x ∈ b, x < S.lexorder.length) (hm : ∀ i < S.lexorder.length, i ∈ b ↔ r.getD i 0 ∈ a) {c c' : Cache}
    (hc : CacheInv S.lexorder.length (lexorderSymmetries S) c) (hc' : CacheInv S.lexorder.length (lexorderSymmetries S) c') (hext : Extends (monomialOf S c a).1 c') :
    (monomialOf S c' b).2 = (monomialOf S c a).2 := by
  have hf : ∀ {a : List Nat}, (∀ x ∈ a, x < S.lexorder.length) → ∀ f ∈ factorize S a, ∀ x ∈ f, x < S.lexorder.length := fun ha f hf x hx => ha x ((factorize_sublist hf).subset hx)
  obtain ⟨u, hu, eu⟩ := row_inverse hr
  by_cases hane : a = []
  · have hbe : b = [] := by
      rw [List.eq_nil_iff_forall_not_mem]
      intro x hx
      have := (hm x (hb x hx)).1 hx
      simp [hane] at this
    subst hane hbe
    have : factorize S [] = [[]] := by simp [factorize]
    simp [monomialOf, this, atomsOf]
  · have hbne : b ≠ [] := by
      obtain ⟨x, hx⟩ := List.exists_mem_of_ne_nil a hane
      have : u.getD x 0 ∈ b := by rw [hm _ (row_lt hu (ha x hx)), (eu x (ha x hx)).2]; exact hx
      exact List.ne_nil_of_mem this
    obtain ⟨i1, i2, i3⟩ := atomsOf_inv (factorize S a) c hc (hf ha)
    obtain ⟨j1, j2, j3⟩ := atomsOf_inv (factorize S b) c' hc' (hf hb)
    have hkeys := factor_keys hr hS ha hb hane hbne hm
    have hnon : ∀ {a : List Nat}, a ≠ [] → (∀ x ∈ a, x < S.lexorder.length) → (factorize S a).filter (fun f => !f.isEmpty) = factorize S a := by
      intro a hane ha
      rw [List.filter_eq_self]
      intro f hf
      obtain ⟨_, a2, _, _⟩ := C09_factorization S a hane ha (capacity_of_copies S hS ha)
      simpa using (a2 f hf).1
    rw [hnon hane ha] at i3
    rw [hnon hbne hb] at j3
    -- the atoms are the entries of the final cache
    set d := (atomsOf S c' (factorize S b)).1 with hd
    have hcd : Extends (atomsOf S c (factorize S a)).1 d := Extends.trans hext j2
    have gen : ∀ {fs : List (List Nat)} {ms : List Atom} (φ : List Nat → List Bool), List.Forall₂ (fun f m => d.lookup (φ f) = some m) fs ms →
        fs.map (fun f => d.lookup (φ f)) = ms.map some := by
      intro fs ms φ h
      induction h with
      | nil => rfl
      | cons h _ ih => rw [List.map_cons, List.map_cons, h, ih]
    have m1 : (factorize S a).map (fun f => d.lookup (image (boolKey S.lexorder.length f) r)) = (atomsOf S c (factorize S a)).2.map some := by
      apply gen (fun f => image (boolKey S.lexorder.length f) r)
      exact i3.imp fun f m h => j1.closed _ _ _ (hcd _ _ h) ⟨r, hr, rfl⟩
    have m2 : (factorize S b).map (fun f => d.lookup (boolKey S.lexorder.length f)) = (atomsOf S c' (factorize S b)).2.map some := gen (boolKey S.lexorder.length) j3
    have hperm : ((atomsOf S c (factorize S a)).2.map some).Perm ((atomsOf S c' (factorize S b)).2.map some) := by
      rw [← m1, ← m2]
      have := hkeys.map fun k => d.lookup k
      simpa [List.map_map, Function.comp_def] using this
    have hperm' : (atomsOf S c (factorize S a)).2.Perm (atomsOf S c' (factorize S b)).2 := by
      have := hperm.filterMap id
      simpa [List.filterMap_map] using this
    exact sortBy_eq_of_perm atomLe atomLe_total atomLe_trans atomLe_antisymm hperm'.symm

end Verif.Sanitise

import Verif.Distinct.Lp
import Verif.Sanitise.Session
/-!
The moments of the program are closed under taking some of the factors of a moment.
-/
namespace Verif.Distinct
open Verif.Common Verif.Scenario Verif.Orbits Verif.Components Verif.Moment Verif.State Verif.EndToEnd Verif.Sanitise Verif.SdpEnd
open Verif.Symmetry (lexorderSymmetries)
open Verif.CollinsGisin
open Verif.LpSolver (columnsOf)

variable {S : Scenario}

theorem lookups_of_forall2 {d : Cache} {φ : List Nat → List Bool} {fs : List (List Nat)} {ms : List Atom} (h : List.Forall₂ (fun f m => d.lookup (φ f) = some m) fs ms) :
    fs.map (fun f => d.lookup (φ f)) = ms.map some := by
  induction h with
  | nil => rfl
  | cons h _ ih => rw [List.map_cons, List.map_cons, h, ih]

theorem perm_of_map_some {l m : List Atom} (h : (l.map some).Perm (m.map some)) : l.Perm m := by
  have := h.filterMap id
  simpa [List.filterMap_map] using this

/-- The entries of the cache for the factors of a set of operators. -/
def entries (S : Scenario) (d : Cache) (a : List Nat) : List (Option Atom) := ((factorize S a).filter fun f => !f.isEmpty).map fun f => d.lookup (boolKey S.lexorder.length f)

theorem Holds.entries {d : Cache} {a : List Nat} {m : Mon} (h : Holds S d a m) : (entries S d a).Perm (m.map some) := by
  obtain ⟨ms, h1, h2⟩ := h
  unfold Distinct.entries
  rw [lookups_of_forall2 (φ := boolKey S.lexorder.length) h2]
  exact h1.map _

theorem entries_nil {d : Cache} : entries S d [] = [] := by simp [entries, factorize]

theorem entries_of_ne (hS : copiesOf S ≤ 254) {d : Cache} {a : List Nat} (hne : a ≠ []) (ha : ∀ x ∈ a, x < S.lexorder.length) :
    entries S d a = (factorize S a).map fun f => d.lookup (boolKey S.lexorder.length f) := by
  unfold entries
  rw [factors_nonempty hS hne ha]

/-- Related sets have the same entries. -/
theorem entries_orbit (hS : copiesOf S ≤ 254) {d : Cache} (hd : CacheInv S.lexorder.length (lexorderSymmetries S) d) {a b : List Nat} (ha : ∀ x ∈ a, x < S.lexorder.length)
    (hb : ∀ x ∈ b, x < S.lexorder.length) (h : SameOrbit (lexorderSymmetries S) (boolKey S.lexorder.length a) (boolKey S.lexorder.length b))
    (hall : ∀ o ∈ entries S d a, o ≠ none) : (entries S d a).Perm (entries S d b) := by
  obtain ⟨r, hr, e⟩ := h
  have hm := (image_boolKey ((symmetries_isGroup S).perm _ hr)).1 e
  obtain ⟨u, hu, eu⟩ := row_inverse hr
  by_cases hane : a = []
  · have hbe : b = [] := by
      rw [List.eq_nil_iff_forall_not_mem]
      intro x hx
      have := (hm x (hb x hx)).1 hx
      simp [hane] at this
    subst hane hbe
    exact List.Perm.refl _
  · have hbne : b ≠ [] := by
      obtain ⟨x, hx⟩ := List.exists_mem_of_ne_nil a hane
      have : u.getD x 0 ∈ b := by rw [hm _ (row_lt hu (ha x hx)), (eu x (ha x hx)).2]; exact hx
      exact List.ne_nil_of_mem this
    rw [entries_of_ne hS hane ha] at hall ⊢
    rw [entries_of_ne hS hbne hb]
    have hk := (factor_keys hr hS ha hb hane hbne hm).map fun k => d.lookup k
    rw [List.map_map, List.map_map] at hk
    refine List.Perm.trans (List.Perm.of_eq ?_) hk
    apply List.map_congr_left
    intro f hf
    obtain ⟨x, hx⟩ := Option.ne_none_iff_exists'.1 (hall _ (List.mem_map.2 ⟨f, hf, rfl⟩))
    show _ = d.lookup (image (boolKey S.lexorder.length f) r)
    rw [hx, hd.closed _ _ _ hx ⟨r, hr, rfl⟩]

/-- A partition into the classes of joined operators is, as a list of sets, the factorisation. -/
theorem keys_unique (hS : copiesOf S ≤ 254) {b : List Nat} (hb : ∀ x ∈ b, x < S.lexorder.length) (hne : b ≠ []) {fs : List (List Nat)} (h1 : ∀ x, x ∈ fs.flatten ↔ x ∈ b)
    (h2 : ∀ f ∈ fs, f ≠ []) (h3 : fs.Pairwise List.Disjoint) (h4 : ∀ f ∈ fs, ∀ x ∈ f, ∀ y ∈ b, y ∈ f ↔ Joined S b x y) :
    ((factorize S b).map (boolKey S.lexorder.length)).Perm (fs.map (boolKey S.lexorder.length)) := by
  obtain ⟨b1, b2, b3, b4⟩ := C09_factorization S b hne hb (capacity_of_copies S hS hb)
  have hmem : ∀ f ∈ fs, ∀ x ∈ f, x ∈ b := fun f hf x hx => (h1 x).1 (List.mem_flatten.2 ⟨f, hf, hx⟩)
  have nd : ∀ gs : List (List Nat), (∀ f ∈ gs, f ≠ []) → (∀ f ∈ gs, ∀ x ∈ f, x ∈ b) → gs.Pairwise List.Disjoint → (gs.map (boolKey S.lexorder.length)).Nodup := by
    intro gs g1 g2 g3
    refine List.pairwise_map.2 (g3.imp_of_mem ?_)
    intro f f' hf hf' hd e
    obtain ⟨x, hx⟩ := List.exists_mem_of_ne_nil f (g1 f hf)
    exact hd hx ((boolKey_eq_iff.1 e x (hb x (g2 f hf x hx))).1 hx)
  have match' : ∀ f ∈ factorize S b, ∀ g ∈ fs, (∃ x, x ∈ f ∧ x ∈ g) → boolKey S.lexorder.length f = boolKey S.lexorder.length g := by
    rintro f hf g hg ⟨x, hxf, hxg⟩
    rw [boolKey_eq_iff]
    intro y _
    constructor
    · intro hy
      have hyb := (b2 f hf).2.subset hy
      exact (h4 g hg x hxg y hyb).2 ((b4 f hf x hxf y hyb).1 hy)
    · intro hy
      have hyb := hmem g hg y hy
      exact (b4 f hf x hxf y hyb).2 ((h4 g hg x hxg y hyb).1 hy)
  rw [List.perm_ext_iff_of_nodup (nd _ (fun f hf => (b2 f hf).1) (fun f hf x hx => (b2 f hf).2.subset hx) b3) (nd _ h2 hmem h3)]
  intro k
  simp only [List.mem_map]
  constructor
  · rintro ⟨f, hf, rfl⟩
    obtain ⟨x, hx⟩ := List.exists_mem_of_ne_nil f (b2 f hf).1
    obtain ⟨g, hg, hxg⟩ := List.mem_flatten.1 ((h1 x).2 ((b2 f hf).2.subset hx))
    exact ⟨g, hg, (match' f hf g hg ⟨x, hx, hxg⟩).symm⟩
  · rintro ⟨g, hg, rfl⟩
    obtain ⟨x, hx⟩ := List.exists_mem_of_ne_nil g (h2 g hg)
    obtain ⟨f, hf, hxf⟩ := List.mem_flatten.1 (b1.mem_iff.2 (hmem g hg x hx))
    exact ⟨f, hf, match' f hf g hg ⟨x, hxf, hx⟩⟩

/-- Some of the factors of a set of operators are the factors of the union of these. -/
theorem entries_sublist (hS : copiesOf S ≤ 254) {d : Cache} {a : List Nat} (ha : ∀ x ∈ a, x < S.lexorder.length) {fs : List (List Nat)} (hfs : fs.Sublist (factorize S a))
    (hane : a ≠ []) : ∃ b : List Nat, b.Sublist a ∧ (entries S d b).Perm (fs.map fun f => d.lookup (boolKey S.lexorder.length f)) := by
  obtain ⟨a1, a2, a3, a4⟩ := C09_factorization S a hane ha (capacity_of_copies S hS ha)
  refine ⟨a.filter fun x => decide (x ∈ fs.flatten), List.filter_sublist, ?_⟩
  have hsub : ∀ x ∈ fs.flatten, x ∈ a := by
    intro x hx
    obtain ⟨f, hf, hxf⟩ := List.mem_flatten.1 hx
    exact (a2 f (hfs.subset hf)).2.subset hxf
  have hmem : ∀ x, x ∈ (a.filter fun x => decide (x ∈ fs.flatten)) ↔ x ∈ fs.flatten := by
    intro x
    rw [List.mem_filter]
    constructor
    · rintro ⟨-, h⟩; simpa using h
    · intro h; exact ⟨hsub x h, by simpa using h⟩
  by_cases hne : (a.filter fun x => decide (x ∈ fs.flatten)) = []
  · have : fs = [] := by
      cases fs with
      | nil => rfl
      | cons f fs =>
        obtain ⟨x, hx⟩ := List.exists_mem_of_ne_nil f (a2 f (hfs.subset (List.mem_cons_self ..))).1
        have : x ∈ (a.filter fun x => decide (x ∈ (f :: fs).flatten)) := (hmem x).2 (List.mem_flatten.2 ⟨f, List.mem_cons_self .., hx⟩)
        rw [hne] at this
        simp at this
    subst this
    rw [hne, entries_nil]
    exact List.Perm.refl _
  · have hb : ∀ x ∈ (a.filter fun x => decide (x ∈ fs.flatten)), x < S.lexorder.length := fun x hx => ha x (List.mem_filter.1 hx).1
    rw [entries_of_ne hS hne hb]
    have := (keys_unique hS hb hne (fs := fs) (fun x => (hmem x).symm) (fun f hf => (a2 f (hfs.subset hf)).1) (a3.sublist hfs) (by
      intro f hf x hx y hy
      rw [a4 f (hfs.subset hf) x hx y (List.mem_filter.1 hy).1]
      constructor
      · intro h
        -- the chain stays in the factor
        have key : ∀ z, Joined S a x z → Joined S (a.filter fun x => decide (x ∈ fs.flatten)) x z ∧ z ∈ f := by
          intro z hz
          induction hz with
          | refl => exact ⟨.refl, hx⟩
          | tail hxy hyz ih =>
            rename_i u w
            obtain ⟨i1, i2⟩ := ih
            have hw : w ∈ f := (a4 f (hfs.subset hf) x hx w hyz.2.1).2 (hxy.tail hyz)
            exact ⟨i1.tail ⟨(hmem u).2 (List.mem_flatten.2 ⟨f, hf, i2⟩), (hmem w).2 (List.mem_flatten.2 ⟨f, hf, hw⟩), hyz.2.2⟩, hw⟩
        exact (key y h).1
      · intro h
        exact Relation.ReflTransGen.lift (p := fun i j => i ∈ a ∧ j ∈ a ∧ Touch S i j) (fun i => i)
          (fun u w h => ⟨(List.mem_filter.1 h.1).1, (List.mem_filter.1 h.2.1).1, h.2.2⟩) _ _ h)).map fun k => d.lookup k
    rw [List.map_map, List.map_map] at this
    exact this

theorem forall2_sublist {α β : Type} {R : α → β → Prop} {l : List α} {m m' : List β} (h : List.Forall₂ R l m) (hs : m'.Sublist m) :
    ∃ l', l'.Sublist l ∧ List.Forall₂ R l' m' := by
  induction hs generalizing l with
  | slnil => cases h; exact ⟨[], .slnil, .nil⟩
  | cons a _ ih =>
    cases h with
    | cons h1 h2 =>
      obtain ⟨l', h3, h4⟩ := ih h2
      exact ⟨l', h3.cons _, h4⟩
  | cons_cons a _ ih =>
    cases h with
    | cons h1 h2 =>
      obtain ⟨l', h3, h4⟩ := ih h2
      exact ⟨_ :: l', h3.cons_cons _, .cons h1 h4⟩

variable {I : Input}

/-- Sets of operators contained in an event of the columns are events. -/
theorem raw_closed (hI : I.Accepted) {v : List Bool}
    (hv : v ∈ rawMonomials I.scenario.lexorder.length (groupsOf I.scenario I.hasChildren I.allOutcomes) (templateAdj I.scenario I.D I.anyNonclassical))
    {b : List Nat} (hb : b.Sublist (flatnonzero v)) :
    boolKey I.scenario.lexorder.length b ∈
      rawMonomials I.scenario.lexorder.length (groupsOf I.scenario I.hasChildren I.allOutcomes) (templateAdj I.scenario I.D I.anyNonclassical) := by
  have hB := blocksOk_groupsOf I.scenario hI.out_pos I.hasChildren I.allOutcomes
  have hs := templateAdj_symm I.scenario I.D I.anyNonclassical
  rw [mem_rawMonomials hB hs] at hv ⊢
  obtain ⟨e, h1, h2, rfl⟩ := hv
  refine ⟨e.filter fun x => decide (x ∈ b), hB.isEvent_sublist List.filter_sublist h1, fun c hc hm => h2 c hc (List.mem_filter.1 hm).1, ?_⟩
  apply boolKey_ext
  intro i hi
  rw [List.mem_filter]
  constructor
  · intro h
    exact ⟨(mem_flatnonzero_boolKey.1 (hb.subset h)).2, by simpa using h⟩
  · rintro ⟨-, h⟩
    simpa using h

theorem columnMoments_sorted : ∀ (vs : List (List Bool)) (c : Cache), ∀ m ∈ columnMoments S c vs, sortBy atomLe m = m := by
  intro vs
  induction vs with
  | nil => intro c m hm; simp [columnMoments] at hm
  | cons v vs ih =>
    intro c m hm
    unfold columnMoments at hm
    rcases List.mem_cons.1 hm with rfl | hm
    · exact sort_idem _
    · exact ih _ m hm

/-- **Some of the factors of a moment of the program form a moment of the program.** -/
theorem monomials_closed (hI : I.Accepted) (hS : copiesOf I.scenario ≤ 254) {m : Mon} (hm : m ∈ I.monomials) {l : Mon} (hl : l.Subperm m) : sortBy atomLe l ∈ I.monomials := by
  obtain ⟨d, h1, -, h2⟩ := columnMoments_holds I.columns [] inv_nil (columns_length hI)
  have h2' : List.Forall₂ (fun v m => Holds I.scenario d (flatnonzero v) m) I.columns I.monomials := h2
  obtain ⟨v, hv, ms, hp, hf⟩ := forall2_mem_right h2' hm
  have hvlen := columns_length hI v hv
  obtain ⟨r1, r2⟩ := raw_spec hI
  have hraw : v ∈ rawMonomials I.scenario.lexorder.length (groupsOf I.scenario I.hasChildren I.allOutcomes) (templateAdj I.scenario I.D I.anyNonclassical) := representatives_mem hv
  have ha := flatnonzero_lt hvlen
  obtain ⟨ms', q1, q2⟩ := hl.trans hp.symm.subperm
  obtain ⟨fs, s1, s2⟩ := forall2_sublist hf q2
  -- the sub-event
  have hb : ∃ b : List Nat, b.Sublist (flatnonzero v) ∧ (entries I.scenario d b).Perm (l.map some) := by
    by_cases hane : flatnonzero v = []
    · rw [hane] at s1
      have : fs = [] := by simpa [factorize] using s1
      subst this
      cases s2
      have : l = [] := List.nil_perm.1 q1
      subst this
      exact ⟨[], List.nil_sublist _, by rw [entries_nil]; exact List.Perm.refl _⟩
    · rw [factors_nonempty hS hane ha] at s1
      obtain ⟨b, b1, b2⟩ := entries_sublist (d := d) hS ha s1 hane
      refine ⟨b, b1, b2.trans ?_⟩
      rw [lookups_of_forall2 (φ := boolKey I.scenario.lexorder.length) s2]
      exact q1.map _
  obtain ⟨b, hba, hbe⟩ := hb
  have hbl : ∀ x ∈ b, x < I.scenario.lexorder.length := fun x hx => ha x (hba.subset hx)
  obtain ⟨c, w, -, hw, hwr, hid⟩ := columnOf_spec (symReq := I.symmetrize) (syms := lexorderSymmetries I.scenario) (fun _ => symmetries_isGroup I.scenario) r1 r2 (raw_closed hI hraw hba)
  have horb : SameOrbit (lexorderSymmetries I.scenario) (boolKey I.scenario.lexorder.length b) w := by
    unfold Identified at hid
    split at hid
    · exact hid
    · rw [← hid]; exact sameOrbit_refl (symmetries_isGroup I.scenario) (boolKey_length _ _)
  have hwc : I.columns[c]? = some w := hw
  obtain ⟨hc, hcw⟩ := List.getElem?_eq_some_iff.1 hwc
  have hwlen := r1 w hwr
  rw [List.forall₂_iff_get] at h2'
  have hc' : c < I.monomials.length := by rw [← h2'.1]; exact hc
  have hold := h2'.2 c hc hc'
  simp only [List.get_eq_getElem] at hold
  rw [hcw] at hold
  have hew : boolKey I.scenario.lexorder.length (flatnonzero w) = w := by rw [← hwlen]; exact boolKey_flatnonzero
  have e1 := entries_orbit hS h1 hbl (flatnonzero_lt hwlen) (by rw [hew]; exact horb) (by
    intro o ho
    have := hbe.mem_iff.1 ho
    obtain ⟨x, -, rfl⟩ := List.mem_map.1 this
    simp)
  have e2 : (l.map some).Perm ((I.monomials[c]).map some) := hbe.symm.trans (e1.trans hold.entries)
  have e3 : sortBy atomLe l = I.monomials[c] := by
    rw [sort_perm (perm_of_map_some e2)]
    exact columnMoments_sorted I.columns [] _ (List.getElem_mem hc')
  rw [e3]
  exact List.getElem_mem hc'

end Verif.Distinct

import Verif.Theory.Spec
import Verif.EndToEnd.Build
/-!
The events of the linear program are joint events of the specification; joint events are preserved by permutations, sub-events and relabellings of copies.
-/
namespace Verif.Theory
open Verif.Common Verif.Scenario Verif.Components Verif.Orbits Verif.CollinsGisin
open Verif.EndToEnd (Input)
open Verif.Symmetry (Relabelling lexorderSymmetries inducedRow)

variable {I : Input}

theorem incompatible_iff (D : DagInput) (a b : Op) : Incompatible D a b ↔ operatorsCommute D.tbl a b = false := (C06_noncommuting_iff D a b).symm

theorem incompatible_symm {D : DagInput} {a b : Op} (h : Incompatible D a b) : Incompatible D b a := by
  rw [incompatible_iff] at h ⊢
  rw [operatorsCommute_symm (C45_table_symmetric D)]
  exact h

theorem SameMeasurement.symm {a b : Op} (h : SameMeasurement a b) : SameMeasurement b a := ⟨h.1.symm, h.2.1.symm, h.2.2.symm⟩

theorem Joint.perm {e e' : List Op} (h : Joint I e) (hp : e.Perm e') : Joint I e' where
  valid := fun x hx => h.valid x (hp.mem_iff.2 hx)
  compat := (hp.pairwise_iff fun {x y} (hxy : ¬ SameMeasurement x y ∧ ¬ Incompatible I.D x y) => ⟨fun hc => hxy.1 hc.symm, fun hc => hxy.2 (incompatible_symm hc)⟩).1 h.compat

theorem Joint.sublist {e e' : List Op} (h : Joint I e) (hp : e'.Sublist e) : Joint I e' where
  valid := fun x hx => h.valid x (hp.subset hx)
  compat := h.compat.sublist hp

theorem mapIdx_inj {S : Scenario} {g : Nat → Nat → Nat} (hg : Relabelling S g) {a b : Op} (ha : Valid S a) (hb : Valid S b) (h : a.copies.mapIdx g = b.copies.mapIdx g) : a.copies = b.copies := by
  apply List.ext_getElem (by rw [ha.copies_len, hb.copies_len])
  intro s h1 h2
  have e := congrArg (fun l : List Nat => l[s]?) h
  simp only [List.getElem?_mapIdx, List.getElem?_eq_getElem h1, List.getElem?_eq_getElem h2, Option.map_some, Option.some.injEq] at e
  have := ha.copy_le (List.getElem?_eq_getElem h1)
  exact hg.inj this.1 this.2 (hb.copy_le (List.getElem?_eq_getElem h2)).2 e

theorem Joint.relabel {e : List Op} (h : Joint I e) {g : Nat → Nat → Nat} (hg : Relabelling I.scenario g) : Joint I (e.map (Verif.Symmetry.act g)) where
  valid := by
    intro x hx
    obtain ⟨y, hy, rfl⟩ := List.mem_map.1 hx
    exact Verif.Symmetry.act_valid _ hg (h.valid y hy)
  compat := by
    rw [List.pairwise_map]
    refine List.Pairwise.imp_of_mem ?_ h.compat
    intro x y hx hy hxy
    refine ⟨?_, ?_⟩
    · rintro ⟨h1, h2, h3⟩
      exact hxy.1 ⟨h1, mapIdx_inj hg (h.valid x hx) (h.valid y hy) h2, h3⟩
    · intro hc
      apply hxy.2
      rw [incompatible_iff] at hc ⊢
      rwa [Verif.Symmetry.operatorsCommute_act I.scenario I.D.tbl hg (h.valid x hx) (h.valid y hy)] at hc

/-- The operators with given ranks. -/
def ops (I : Input) (e : List Nat) : List Op := e.filterMap (I.scenario.lexorder[·]?)

theorem ops_valid (e : List Nat) : ∀ x ∈ ops I e, Valid I.scenario x := by
  intro x hx
  obtain ⟨r, _, hr⟩ := List.mem_filterMap.1 hx
  exact (mem_lexorder _).1 (List.mem_of_getElem? hr)

theorem ops_perm {e e' : List Nat} (h : e.Perm e') : (ops I e).Perm (ops I e') := h.filterMap _

theorem rank_group {r : Nat} {op : Op} (h : I.scenario.lexorder[r]? = some op) :
    ∃ i : Nat, ∃ k, I.scenario.measKeys[i]? = some k ∧ k = op.key ∧ op ∈ I.scenario.orthoGroup k ∧ r ∈ blockOf I.scenario k := by
  have hm := List.mem_of_getElem? h
  have hr : I.scenario.lexorder.idxOf op = r := by
    obtain ⟨h1, h2⟩ := List.getElem?_eq_some_iff.1 h
    rw [← h2]
    exact List.Nodup.idxOf_getElem (lexorder_nodup _) _ h1
  rw [lexorder_eq, List.mem_flatMap] at hm
  obtain ⟨k, hk, ho⟩ := hm
  obtain ⟨i, hi, rfl⟩ := List.getElem_of_mem hk
  exact ⟨i, _, List.getElem?_eq_getElem hi, (key_of_mem_orthoGroup _ ho).symm, ho, List.mem_map.2 ⟨op, ho, hr⟩⟩

theorem commute_classical (h : I.anyNonclassical = false) (a b : Op) : ¬ Incompatible I.D a b := by
  rintro ⟨⟨s, src, c, h1, h2, _⟩, _⟩
  unfold Input.anyNonclassical at h
  rw [List.any_eq_false] at h
  have := h src (List.mem_of_getElem? h1)
  apply this
  simp [DagInput.bonus, h2.1]

/-- The events of the program are joint events. -/
theorem joint_of_isEvent (hout : ∀ p, p < I.scenario.nParties → 1 ≤ I.scenario.outcomes p) {hc : Nat → Bool} {force : Bool} {e : List Nat}
    (he : IsEvent (blocksOf (groupsOf I.scenario hc force)) (templateAdj I.scenario I.D I.anyNonclassical) e) : Joint I (ops I e) where
  valid := ops_valid e
  compat := by
    unfold ops
    rw [List.pairwise_filterMap]
    apply he.compat.imp
    intro r s hrs x hx y hy
    obtain ⟨i, k, hi, ek, hxk, hrk⟩ := rank_group hx
    obtain ⟨j, l, hj, el, hyl, hsl⟩ := rank_group hy
    have hblock : ∀ {i : Nat} {k}, I.scenario.measKeys[i]? = some k → (blocksOf (groupsOf I.scenario hc force))[i]? = some (blockOf I.scenario k) := by
      intro i k hi
      rw [groupsOf_eq, blocksOf, List.map_map, List.getElem?_map, hi]
      rfl
    have hadj := (hrs i j _ _ (hblock hi) (hblock hj) hrk hsl)
    have hkl : k ≠ l := by
      rintro rfl
      exact (hrs i i _ _ (hblock hi) (hblock hi) hrk hsl).1 rfl
    refine ⟨?_, ?_⟩
    · rintro ⟨h1, h2, h3⟩
      apply hkl
      rw [ek, el]
      simp [Op.key, h1, h2, h3]
    · intro hinc
      rcases hq : I.anyNonclassical with _ | _
      · exact commute_classical hq _ _ hinc
      · have hkm := (mem_measKeys _).1 (List.mem_of_getElem? hi)
        have hlm := (mem_measKeys _).1 (List.mem_of_getElem? hj)
        have h2 := hadj.2
        rw [templateAdj_eq I.scenario I.D _ hi hj (hout _ (by omega)) (hout _ (by omega)), hq] at h2
        simp only [Bool.true_and, decide_eq_true hkl, Bool.not_not] at h2
        rw [incompatible_iff] at hinc
        have hkey : operatorsCommute I.D.tbl x y = operatorsCommute I.D.tbl ⟨k.1, k.2.1, k.2.2, 0⟩ ⟨l.1, l.2.1, l.2.2, 0⟩ :=
          operatorsCommute_key (by rw [← ek]; rfl) (by rw [← el]; rfl)
        rw [← hkey, hinc] at h2
        exact absurd h2 (by decide)

theorem ops_inducedRow {g : Nat → Nat → Nat} (hg : Relabelling I.scenario g) {e : List Nat} (he : ∀ r ∈ e, r < I.scenario.lexorder.length) :
    ops I (e.map fun k => (inducedRow I.scenario g).getD k 0) = (ops I e).map (Verif.Symmetry.act g) := by
  unfold ops
  induction e with
  | nil => rfl
  | cons r e ih =>
    have hlt := he r (List.mem_cons_self ..)
    have hrow : (inducedRow I.scenario g).getD r 0 = I.scenario.lexorder.idxOf (Verif.Symmetry.act g I.scenario.lexorder[r]) := by
      have := row_act I.scenario (g := g) (List.getElem_mem hlt)
      rwa [List.Nodup.idxOf_getElem (lexorder_nodup _)] at this
    have hm := (mem_lexorder _).2 (Verif.Symmetry.act_valid I.scenario hg (Verif.Symmetry.lex_valid _ hlt))
    have hi := List.idxOf_lt_length_iff.2 hm
    rw [List.map_cons, List.filterMap_cons_some (b := Verif.Symmetry.act g I.scenario.lexorder[r]) (by rw [hrow, List.getElem?_eq_getElem hi, List.getElem_idxOf]),
      List.filterMap_cons_some (List.getElem?_eq_getElem hlt), List.map_cons, ih fun x hx => he x (List.mem_cons_of_mem _ hx)]

/-- Images of a vector under a symmetry, as sets of operators. -/
theorem flatnonzero_image {g : Nat → Nat → Nat} (hg : Relabelling I.scenario g) (hr : inducedRow I.scenario g ∈ lexorderSymmetries I.scenario) {v : List Bool}
    (hv : v.length = I.scenario.lexorder.length) :
    (flatnonzero v).Perm ((flatnonzero (image v (inducedRow I.scenario g))).map fun k => (inducedRow I.scenario g).getD k 0) ∧
      ∀ k ∈ flatnonzero (image v (inducedRow I.scenario g)), k < I.scenario.lexorder.length := by
  have hperm := (symmetries_isGroup I.scenario).perm _ hr
  have hlen : (image v (inducedRow I.scenario g)).length = I.scenario.lexorder.length := by rw [image_length, hperm.length_eq, List.length_range]
  have hnd : (inducedRow I.scenario g).Nodup := hperm.nodup_iff.2 List.nodup_range
  have hmem : ∀ k, k ∈ flatnonzero (image v (inducedRow I.scenario g)) ↔ k < I.scenario.lexorder.length ∧ v.getD ((inducedRow I.scenario g).getD k 0) false = true := by
    intro k
    unfold flatnonzero
    rw [List.mem_filter, List.mem_range, hlen]
    apply and_congr_right
    intro hk
    have hk' : k < (inducedRow I.scenario g).length := by rw [hperm.length_eq, List.length_range]; exact hk
    unfold image
    rw [List.getD_eq_getElem _ _ (by simpa using hk'), List.getElem_map, List.getD_eq_getElem (inducedRow I.scenario g) _ hk']
  refine ⟨?_, fun k hk => ((hmem k).1 hk).1⟩
  rw [List.perm_ext_iff_of_nodup ((flatnonzero_sorted _).imp Nat.ne_of_lt)]
  · intro a
    rw [List.mem_map]
    have ha : a ∈ flatnonzero v ↔ a < I.scenario.lexorder.length ∧ v.getD a false = true := by
      unfold flatnonzero
      rw [List.mem_filter, List.mem_range, hv]
    rw [ha]
    constructor
    · rintro ⟨h1, h2⟩
      have : a ∈ inducedRow I.scenario g := hperm.mem_iff.2 (List.mem_range.2 h1)
      obtain ⟨k, hk, rfl⟩ := List.getElem_of_mem this
      refine ⟨k, (hmem k).2 ⟨by rw [hperm.length_eq, List.length_range] at hk; exact hk, ?_⟩, List.getD_eq_getElem _ _ hk⟩
      rw [List.getD_eq_getElem _ _ hk]; exact h2
    · rintro ⟨k, hk, rfl⟩
      obtain ⟨h1, h2⟩ := (hmem k).1 hk
      refine ⟨?_, h2⟩
      have hk' : k < (inducedRow I.scenario g).length := by rw [hperm.length_eq, List.length_range]; exact h1
      rw [List.getD_eq_getElem _ _ hk']
      exact List.mem_range.1 (hperm.mem_iff.1 (List.getElem_mem hk'))
  · refine List.Nodup.map_on ?_ ((flatnonzero_sorted _).imp Nat.ne_of_lt)
    intro x hx y hy hxy
    obtain ⟨h1, _⟩ := (hmem x).1 hx
    obtain ⟨h2, _⟩ := (hmem y).1 hy
    have hx' : x < (inducedRow I.scenario g).length := by rw [hperm.length_eq, List.length_range]; exact h1
    have hy' : y < (inducedRow I.scenario g).length := by rw [hperm.length_eq, List.length_range]; exact h2
    rw [List.getD_eq_getElem _ _ hx', List.getD_eq_getElem _ _ hy'] at hxy
    exact (hnd.getElem_inj_iff).1 hxy

end Verif.Theory

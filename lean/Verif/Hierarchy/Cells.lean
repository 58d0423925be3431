import Verif.Hierarchy.Orbit
import Verif.Generate.Build
/-!
The moment in a cell of the moment matrix depends on the row and the column only, not on the rest of the generating set.
-/
namespace Verif.Hierarchy
open Verif.Common Verif.Canon Verif.Canon.Spec Verif.Scenario Verif.Components Verif.Moment Verif.MomentMatrix Verif.SymMM Verif.SdpRepr Verif.SdpEnd Verif.SdpNames Verif.Symmetry Verif.Generate
open Verif.Normalization (opEq_range)
open Verif.State (Dict Mon)
open Verif.EndToEnd (Input)

variable {I : Input}

theorem not_zero {u : List Nat} (hu : InRange I u) (hr : Reduced (notcomm I) (orthomat I) u)
    (h : ¬ OpEq (nOps I) (fun a b => notcomm I a b = false) (fun a b => orthomat I a b = true) u [0]) : 0 ∉ u := by
  intro h0
  rw [reduced_zero hu hr h0] at h
  exact h (.refl _)

/-- Words that cannot be simplified are equal operators only if they differ by exchanges of commuting neighbours. -/
theorem reduced_opEq {u v : List Nat} (hu : InRange I u) (hur : Reduced (notcomm I) (orthomat I) u) (hv : InRange I v) (hvr : Reduced (notcomm I) (orthomat I) v)
    (h : OpEq (nOps I) (fun a b => notcomm I a b = false) (fun a b => orthomat I a b = true) u v) : CommEq (fun a b => notcomm I a b = false) u v := by
  have h1 := (C03_canonical_decides_operator_equality (operatorList I) u v hu hv).2 h
  rw [canonFalse hur, canonFalse hvr] at h1
  have h2 := canon_sound (notcomm I) u
  rw [h1] at h2
  exact h2.trans (canon_sound (notcomm I) v).symm

/-- The product of two monomials, simplified. -/
def productWord (I : Input) (m1 m2 : List Nat) : List Nat := toCanonical (notcomm I) (orthomat I) (allCommute I) false (m1.reverse ++ m2)

/-- The moment of the product of two monomials. -/
def productMoment (I : Input) (ch : Choice) (name : Atom → String) (m1 m2 : List Nat) : Mon := momentOf I ch name (productWord I m1 m2)

theorem product_range {m1 m2 : List Nat} (h1 : InRange I m1) (h2 : InRange I m2) : InRange I (m1.reverse ++ m2) := inRange_append.2 ⟨inRange_reverse.2 h1, h2⟩

theorem productWord_range {m1 m2 : List Nat} (h1 : InRange I m1) (h2 : InRange I m2) : InRange I (productWord I m1 m2) :=
  (opEq_range (nOps_pos I) (canonical_opEq false (product_range h1 h2))).1 (product_range h1 h2)

/-- A product that vanishes has the zero moment. -/
theorem productMoment_zero {ch : Choice} (name : Atom → String) {m1 m2 : List Nat} (h1 : InRange I m1) (h2 : InRange I m2)
    (h : OpEq (nOps I) (fun a b => notcomm I a b = false) (fun a b => orthomat I a b = true) (m1.reverse ++ m2) [0]) : productMoment I ch name m1 m2 = [[0]] := by
  have : productWord I m1 m2 = [0] := by
    unfold productWord
    rw [canonC_eq (fun h => (allCommute_iff I).1 h)]
    exact (C03_canonical_detects_zero (operatorList I) _ (product_range h1 h2)).2 h
  unfold productMoment momentOf
  rw [this]
  rfl

/-- The moment of a word that is, after a relabelling of the copies, the product or its adjoint. -/
theorem productMoment_eq {ch : Choice} (hch : UsualChoice ch I) (name : Atom → String) (hS : copiesOf I.scenario ≤ 254) {m1 m2 w : List Nat} (h1 : InRange I m1) (h2 : InRange I m2)
    (hw : InRange I w) (hw0 : 0 ∉ w) (hwr : Reduced (notcomm I) (orthomat I) w) {r : List Nat} (hr : r ∈ symmetries I) (h : Upto I (w.map fun x => r.getD x x) (m1.reverse ++ m2)) :
    productMoment I ch name m1 m2 = momentOf I ch name w := by
  have e := canonical_opEq (I := I) false (product_range h1 h2)
  have hu := productWord_range h1 h2
  have hur : Reduced (notcomm I) (orthomat I) (productWord I m1 m2) := canonical_reduced (product_range h1 h2)
  have hmr := reduced_mapW (symData I) hr hw hwr
  have hmw := (symData I).mapW_lt hr hw
  have hup : Upto I (w.map fun x => r.getD x x) (productWord I m1 m2) := h.trans (.inl e)
  have hu0 : 0 ∉ productWord I m1 m2 := by
    intro h0
    have hz := reduced_zero hu hur h0
    rw [hz] at hup
    have hc : OpEq (nOps I) (fun a b => notcomm I a b = false) (fun a b => orthomat I a b = true) (w.map fun x => r.getD x x) [0] := by
      rcases hup with h | h
      · exact h
      · exact h
    have hcc := reduced_opEq hmw hmr (by intro x hx; rw [List.mem_singleton] at hx; subst hx; exact nOps_pos I) zero_representative.reduced hc
    obtain ⟨r', hr', rfl⟩ := List.mem_map.1 hr
    obtain ⟨x, hx, hx0⟩ := List.mem_map.1 (hcc.perm.mem_iff.2 (List.mem_singleton.2 rfl))
    have hx' : x ≠ 0 := fun h => hw0 (h ▸ hx)
    rw [padRow_get hr' (hw x hx) hx'] at hx0
    omega
  unfold productMoment
  refine ((moment_iff hch name hS hw hw0 hwr hu hu0 hur).2 ?_).symm
  rcases hup with h | h
  · exact .inl ⟨r, hr, reduced_opEq hmw hmr hu hur h⟩
  · exact .inr ⟨r, hr, reduced_opEq hmw hmr (inRange_reverse.2 hu) (Positivity.reduced_reverse (operatorList I).nc_symm hur) h⟩

theorem map_id {w : List Nat} (hw : InRange I w) : (w.map fun x => (List.range (nOps I)).getD x x) = w := by
  conv_rhs => rw [← List.map_id w]
  apply List.map_congr_left
  intro x hx
  exact getD_id (hw x hx)

/-- **The cells.** The moment of a cell is the moment of the product of the row and the column. -/
theorem cell_moment {ch : Choice} (hch : UsualChoice ch I) {name : Atom → String} {cols : List (List Nat)} {B : Built} (hV : Setup I cols ch name B) {i j : Nat} {m1 m2 : List Nat}
    (hi : cols[i]? = some m1) (hj : cols[j]? = some m2) : ∃ k, B.sym[i * cols.length + j]? = some k ∧ B.index.get k = some (productMoment I ch name m1 m2) := by
  have hc := hV.columns
  have hS := hV.copies
  obtain ⟨orbits, repr, c, eqs, h1, h2, h3, _⟩ := build_some hV.built
  have hcon := consistent (operatorList I) (symData I) hc
  obtain ⟨sym', orbits', repr', e', hlen, hrel, horb, hrepr⟩ := C19_symmetrization hcon
  have e2 : (some (B.sym, orbits, repr) : Option _) = some (sym', orbits', repr') := by
    rw [← h1, ← e']; rfl
  simp only [Option.some.injEq, Prod.mk.injEq] at e2
  obtain ⟨rfl, rfl, rfl⟩ := e2
  obtain ⟨sym'', orbits'', repr'', e'', hiff⟩ := C19_every_problem I.scenario I.D I.anyNonclassical (allCommute I) cols hc
  have e3 : (some (B.sym, orbits, repr) : Option _) = some (sym'', orbits'', repr'') := by
    rw [← h1, ← e'']; rfl
  simp only [Option.some.injEq, Prod.mk.injEq] at e3
  obtain ⟨rfl, rfl, rfl⟩ := e3
  obtain ⟨hnd, hc1, hc2⟩ := symmetrizedCorresp_get h2
  set n := cols.length with hn
  set mm := momentMatrix (notcomm I) (orthomat I) (allCommute I) cols with hmm
  have hcelllt : ∀ i j, i < n → j < n → i * n + j < n * n := by
    intro i j hi hj
    calc i * n + j < i * n + n := by omega
      _ = (i + 1) * n := by rw [Nat.add_mul, Nat.one_mul]
      _ ≤ n * n := Nat.mul_le_mul_right _ hi
  have hdm : ∀ i j, j < n → (i * n + j) / n = i ∧ (i * n + j) % n = j := by
    intro i j hj
    constructor
    · rw [Nat.mul_comm, Nat.mul_add_div (by omega), Nat.div_eq_of_lt hj, Nat.add_zero]
    · rw [Nat.mul_comm, Nat.mul_add_mod, Nat.mod_eq_of_lt hj]
  have hrav : ∀ i j, i < n → j < n → (ravel n mm.mat)[i * n + j]? = some (mm.mat i j) := by
    intro i j hi hj
    rw [ravel_get (hcelllt i j hi hj), (hdm i j hj).1, (hdm i j hj).2]
  have hcell : ∀ i j, i < n → j < n → ∃ k, B.sym[i * n + j]? = some k ∧ orbits.lookup (mm.mat i j) = some k := fun i j hi hj => horb _ _ (hrav i j hi hj)
  have hil := (List.getElem?_eq_some_iff.1 hi).1
  have hjl := (List.getElem?_eq_some_iff.1 hj).1
  have hr1 : InRange I m1 := hc.lt _ (List.mem_of_getElem? hi)
  have hr2 : InRange I m2 := hc.lt _ (List.mem_of_getElem? hj)
  obtain ⟨k, hk, hko⟩ := hcell i j hil hjl
  refine ⟨k, hk, ?_⟩
  rw [h3, momentIndex_get ch name _ c hnd k]
  rcases hck : c.get k with _ | w
  · -- the least entry of the orbit
    have hex : ∃ u x, (ravel n mm.mat)[x]? = some u ∧ Related n (ravel n mm.mat) (columnsSymmetries (notcomm I) (orthomat I) (allCommute I) cols (symmetries I)) (i * n + j) x := by
      have := (hrel _ _ (hcelllt i j hil hjl) (hcelllt i j hil hjl)).1 rfl
      exact ⟨_, _, hrav i j hil hjl, this⟩
    classical
    obtain ⟨x, hx, hxr⟩ := Nat.find_spec hex
    set u := Nat.find hex with hu
    have hxlt : x < n * n := by
      have := (List.getElem?_eq_some_iff.1 hx).1
      simpa [ravel] using this
    have hsx : B.sym[i * n + j]? = B.sym[x]? := (hrel _ _ (hcelllt i j hil hjl) hxlt).2 hxr
    have hurep : u ∈ repr := by
      rw [hrepr u (List.mem_of_getElem? hx)]
      intro x' y' u' hx' hy' hr'
      apply Nat.find_min' hex
      refine ⟨y', hy', ?_⟩
      have hx'lt : x' < n * n := by simpa [ravel] using (List.getElem?_eq_some_iff.1 hx').1
      have hy'lt : y' < n * n := by simpa [ravel] using (List.getElem?_eq_some_iff.1 hy').1
      apply (hrel _ _ (hcelllt i j hil hjl) hy'lt).1
      rw [hsx, ← (hrel _ _ hx'lt hy'lt).2 hr']
      obtain ⟨w1, e1, e2⟩ := horb x u hx
      obtain ⟨w2, e3, e4⟩ := horb x' u hx'
      rw [e1, e3, ← e2, ← e4]
    have hk' : orbits.lookup u = some k := by
      obtain ⟨w1, e1, e2⟩ := horb x u hx
      rw [e2, ← e1, ← hsx, hk]
    have hu0 : u = 0 := by
      by_contra hne
      obtain ⟨k2, w, q1, q2⟩ := hc2 u hurep (by omega)
      rw [hk'] at q1
      have := Option.some.inj q1
      subst this
      rw [hck] at q2
      simp at q2
    have hn0 : 0 < n := by omega
    have hxi : x / n < n := Nat.div_lt_of_lt_mul hxlt
    have hxj : x % n < n := Nat.mod_lt _ hn0
    have hxe : x / n * n + x % n = x := by rw [Nat.mul_comm]; exact Nat.div_add_mod x n
    have hm0 : mm.mat (x / n) (x % n) = 0 := by
      have := hrav (x / n) (x % n) hxi hxj
      rw [hxe, hx, hu0] at this
      exact (Option.some.inj this).symm
    have hop := (C18_zero_entries (operatorList I) (allCommute I) hc.comm cols hc.lt _ _ _ _ (List.getElem?_eq_getElem hxi) (List.getElem?_eq_getElem hxj)).1 hm0
    -- the given cell vanishes too
    obtain ⟨r, hr, _, hrr⟩ := (hiff (x / n) (x % n) i j _ _ _ _ (List.getElem?_eq_getElem hxi) (List.getElem?_eq_getElem hxj) hi hj).1 (by rw [hxe]; exact hsx.symm)
    have hmap := (symData I).opEq (nOps_pos I) hr hop
    have hz0 : mapW r [0] = [0] := by
      obtain ⟨r', hr', rfl⟩ := List.mem_map.1 hr
      rfl
    rw [hz0] at hmap
    have hzero : OpEq (nOps I) (fun a b => notcomm I a b = false) (fun a b => orthomat I a b = true) (m1.reverse ++ m2) [0] := by
      rcases hrr with h | h
      · exact h.symm.trans hmap
      · have := opEq_reverse (operatorList I) (h.symm.trans hmap)
        simpa using this
    rw [productMoment_zero name hr1 hr2 hzero]
    have hk0 : k = 0 := by
      have h0mem : (0 : Nat) ∈ ravel n mm.mat := by
        rw [← hu0]; exact List.mem_of_getElem? hx
      by_cases hne : columnsSymmetries (notcomm I) (orthomat I) (allCommute I) cols (symmetries I) = []
      · have h1' : applySymmetries n (ravel n mm.mat) (columnsSymmetries (notcomm I) (orthomat I) (allCommute I) cols (symmetries I)) = some (B.sym, orbits, repr) := h1
        unfold applySymmetries at h1'
        rw [if_pos hne] at h1'
        simp only [Option.some.injEq, Prod.mk.injEq] at h1'
        have e0 : B.sym[x]? = some 0 := by
          rw [← h1'.1, hx, hu0]
        rw [hsx, e0] at hk
        exact (Option.some.inj hk).symm
      · obtain ⟨_, q2, q3⟩ := C19_numbering hcon hne h1 0 h0mem (fun _ _ => Nat.zero_le _)
        obtain ⟨y, v, hy, hyr, hv⟩ := q2 x k (by rw [← hsx]; exact hk)
        rw [Nat.sub_zero] at hv
        have hvr : v ∈ repr := List.mem_of_getElem? hv
        have hylt : y < n * n := by simpa [ravel] using (List.getElem?_eq_some_iff.1 hy).1
        have hv0 : v = 0 := by
          have := (hrepr v (List.mem_of_getElem? hy)).1 hvr y x 0 hy (by rw [hx, hu0]) ((hrel _ _ hylt hxlt).1 ((hrel _ _ hxlt hylt).2 hyr).symm)
          omega
        by_contra hk0
        obtain ⟨hkl, e⟩ := List.getElem?_eq_some_iff.1 hv
        have := List.pairwise_iff_getElem.1 q3 0 k (by omega) hkl (by omega)
        omega
    have hz : (B.sym.contains 0) = true := by
      rw [List.contains_iff_mem]
      rw [hk0] at hk
      exact List.mem_of_getElem? hk
    dsimp only
    rw [if_pos ⟨hz, hk0⟩]
  · dsimp only
    congr 1
    obtain ⟨a, b, m3, m4, ha, hb, hab, _, _, ho⟩ := index_cell hc h1 h2 hck
    have words : InRange I w ∧ 0 ∉ w ∧ Reduced (notcomm I) (orthomat I) w := by
      obtain ⟨idx, _, _, _, hw⟩ := hc1 k w hck
      unfold corresp at hw
      obtain ⟨t, ht, rfl⟩ := Option.map_eq_some_iff.1 hw
      have hm := List.mem_of_find?_eq_some ht
      exact ⟨(table_reduced hc.lt t hm).2, table_nonzero hc.lt t hm, (table_reduced hc.lt t hm).1⟩
    obtain ⟨r, hr, _, hrr⟩ := (hiff a b i j _ _ _ _ ha hb hi hj).1 (by rw [hab, hk])
    have u1 : Upto I w (m3.reverse ++ m4) := by
      rcases ho with h | h
      · exact .inl h
      · right; simpa using h
    have u2 : Upto I ((m3.reverse ++ m4).map fun x => r.getD x x) (m1.reverse ++ m2) := by
      rcases hrr with h | h
      · exact .inl h
      · right
        rw [List.reverse_append, List.reverse_reverse]
        exact h
    exact (productMoment_eq hch name hS hr1 hr2 words.1 words.2.1 words.2.2 hr ((u1.map hr).trans u2)).symm

end Verif.Hierarchy

import Verif.Generate.Build
import Verif.SdpEnd.Psd
/-!
The normalisation equalities of problems which are not networks never make `generate_relaxation` fail, as long as the parties they are about have at least two outcomes.
-/
namespace Verif.Generate
open Verif.Common Verif.Canon Verif.Canon.Spec Verif.Scenario Verif.Components Verif.Moment Verif.MomentMatrix Verif.SymMM Verif.SdpRepr Verif.SdpEnd Verif.SdpNames Verif.Symmetry
open Verif.Normalization (orthoDict_get discover_mem construct_mem C41_search_never_raises lastOutcomeMask orthoDict scenarioGroups discover construct)
open Verif.State (Dict Mon)
open Verif.EndToEnd (Input)

variable {I : Input}

/-- A vanishing entry keeps the index 0. -/
theorem sym_zero {cols : List (List Nat)} (hc : ColsOk (nOps I) (notcomm I) (orthomat I) (allCommute I) cols) {sym repr : List Nat} {orbits : List (Nat × Nat)}
    (h : relaxationMatrix (notcomm I) (orthomat I) (allCommute I) cols (symmetries I) = some (sym, orbits, repr)) {x : Nat}
    (h0 : (ravel cols.length (momentMatrix (notcomm I) (orthomat I) (allCommute I) cols).mat)[x]? = some 0) : sym[x]? = some 0 := by
  have hcon := consistent (operatorList I) (symData I) hc
  obtain ⟨sym', orbits', repr', e', hlen, hrel, horb, hrepr⟩ := C19_symmetrization hcon
  have e2 : (some (sym, orbits, repr) : Option _) = some (sym', orbits', repr') := by
    rw [← h, ← e']; rfl
  simp only [Option.some.injEq, Prod.mk.injEq] at e2
  obtain ⟨rfl, rfl, rfl⟩ := e2
  by_cases hp : columnsSymmetries (notcomm I) (orthomat I) (allCommute I) cols (symmetries I) = []
  · unfold applySymmetries at e'
    rw [if_pos hp] at e'
    have := congrArg Prod.fst (Option.some.inj e')
    dsimp only at this
    rw [← this, h0]
  · have hmem := List.mem_of_getElem? h0
    obtain ⟨n1, n2, n3⟩ := C19_numbering hcon hp e' 0 hmem (fun v _ => Nat.zero_le v)
    have hr0 : (0 : Nat) ∈ repr := (hrepr 0 hmem).2 fun _ _ _ _ _ _ => Nat.zero_le _
    have hhead : repr[0]? = some 0 := by
      match repr, hr0, n3 with
      | a :: t, hm, hpw =>
        rcases List.mem_cons.1 hm with rfl | hm
        · rfl
        · have := (List.pairwise_cons.1 hpw).1 0 hm
          omega
    have hpos : 0 < repr.length := (List.getElem?_eq_some_iff.1 hhead).1
    have h0s : 0 ∈ sym := (n1 0).2 ⟨Nat.le_refl _, by omega⟩
    obtain ⟨x', hx', hx''⟩ := List.mem_iff_getElem.1 h0s
    obtain ⟨y, v, hy, hrl, hv⟩ := n2 x' 0 (by rw [List.getElem?_eq_getElem hx', hx''])
    rw [Nat.sub_zero, hhead] at hv
    have hv := Option.some.inj hv
    subst hv
    obtain ⟨w, hw1, hw2⟩ := horb x 0 h0
    obtain ⟨w', hw3, hw4⟩ := horb y 0 hy
    have hlt : ∀ {z v : Nat}, (ravel cols.length (momentMatrix (notcomm I) (orthomat I) (allCommute I) cols).mat)[z]? = some v → z < cols.length * cols.length := by
      intro z v hz
      simpa [ravel] using (List.getElem?_eq_some_iff.1 hz).1
    have := (hrel x' y (by rw [← hlen]; exact hx') (hlt hy)).2 hrl
    rw [List.getElem?_eq_getElem hx', hx'', hw3] at this
    rw [hw1, ← Option.some.inj (hw2.symm.trans hw4)] at *
    rw [Option.some.inj (hw4.symm.trans hw2)] at this
    exact this.symm

/-- Every index of the matrix has a moment. -/
theorem index_isSome (ch : Choice) (name : Atom → String) {cols : List (List Nat)} (hc : ColsOk (nOps I) (notcomm I) (orthomat I) (allCommute I) cols) {sym repr : List Nat}
    {orbits : List (Nat × Nat)} {c : Dict Nat (List Nat)} (h1 : relaxationMatrix (notcomm I) (orthomat I) (allCommute I) cols (symmetries I) = some (sym, orbits, repr))
    (h2 : symmetrizedCorresp orbits (momentMatrix (notcomm I) (orthomat I) (allCommute I) cols).tbl repr = some c) {k : Nat} (hk : k ∈ sym) :
    ∃ m, (momentIndex I ch name (sym.contains 0) c).get k = some m := by
  obtain ⟨hnd, hc1, hc2⟩ := symmetrizedCorresp_get h2
  rw [momentIndex_get ch name _ c hnd k]
  rcases hck : c.get k with _ | w
  · have hcon := consistent (operatorList I) (symData I) hc
    obtain ⟨sym', orbits', repr', e', hlen, hrel, horb, hrepr⟩ := C19_symmetrization hcon
    have e2 : (some (sym, orbits, repr) : Option _) = some (sym', orbits', repr') := by
      rw [← h1, ← e']; rfl
    simp only [Option.some.injEq, Prod.mk.injEq] at e2
    obtain ⟨rfl, rfl, rfl⟩ := e2
    obtain ⟨x, hx, hxk⟩ := List.mem_iff_getElem.1 hk
    have hxlt : x < cols.length * cols.length := by rw [← hlen]; exact hx
    have hmm : x < (ravel cols.length (momentMatrix (notcomm I) (orthomat I) (allCommute I) cols).mat).length := by simpa [ravel] using hxlt
    have hsx : sym[x]? = some k := by rw [List.getElem?_eq_getElem hx, hxk]
    have hex : ∃ u y, (ravel cols.length (momentMatrix (notcomm I) (orthomat I) (allCommute I) cols).mat)[y]? = some u ∧ sym[y]? = some k :=
      ⟨_, x, List.getElem?_eq_getElem hmm, hsx⟩
    classical
    obtain ⟨y, hy, hyk⟩ := Nat.find_spec hex
    set u := Nat.find hex with hu
    have hlt : ∀ {z v : Nat}, (ravel cols.length (momentMatrix (notcomm I) (orthomat I) (allCommute I) cols).mat)[z]? = some v → z < cols.length * cols.length := by
      intro z v hz
      simpa [ravel] using (List.getElem?_eq_some_iff.1 hz).1
    have hl : orbits.lookup u = some k := by
      obtain ⟨w1, e1, e2⟩ := horb y u hy
      rw [e2, ← e1, hyk]
    have hurep : u ∈ repr := by
      rw [hrepr u (List.mem_of_getElem? hy)]
      intro x' y' u' hx' hy' hr'
      apply Nat.find_min' hex
      refine ⟨y', hy', ?_⟩
      rw [← (hrel _ _ (hlt hx') (hlt hy')).2 hr']
      obtain ⟨w2, e3, e4⟩ := horb x' u hx'
      rw [e3, ← e4, hl]
    have hu0 : u = 0 := by
      by_contra hne
      obtain ⟨k2, w, q1, q2⟩ := hc2 u hurep (by omega)
      rw [hl] at q1
      have := Option.some.inj q1
      subst this
      rw [hck] at q2
      simp at q2
    rw [hu0] at hy
    have hk0 := (sym_zero hc h1 hy).symm.trans hyk
    have hk0 := (Option.some.inj hk0).symm
    subst hk0
    exact ⟨_, by dsimp only; rw [if_pos ⟨by simpa [List.contains_iff_mem] using hk, rfl⟩]⟩
  · exact ⟨_, rfl⟩

/-- The measurements found by the search belong to parties with children and have all the outcomes of their party. -/
theorem group_length {x : Nat} {g : List Nat} (hm : (lastOutcomeMask I.scenario.lexorder (withChildren I) (cardinalities I)).getD x false = true)
    (hg : Dict.get (orthoDict (scenarioGroups I.scenario)) x = some g) : ∃ p, withChildren I p = true ∧ p < I.scenario.nParties ∧ g.length = I.outcomes.getD p 0 := by
  obtain ⟨hgm, hlast⟩ := orthoDict_get hg
  obtain ⟨og, hog, rfl⟩ := List.mem_map.1 hgm
  obtain ⟨k, hk, rfl⟩ := List.mem_map.1 hog
  obtain ⟨o, ho, hox⟩ := List.mem_map.1 (List.mem_of_getLast? hlast)
  have holex : o ∈ I.scenario.lexorder := by
    rw [lexorder_eq, List.mem_flatMap]
    exact ⟨k, hk, ho⟩
  have hget : I.scenario.lexorder[x - 1]? = some o := by
    rw [← hox, Nat.add_sub_cancel, List.getElem?_eq_getElem (List.idxOf_lt_length_of_mem holex), List.getElem_idxOf]
  obtain ⟨y, rfl⟩ : ∃ y, x = y + 1 := ⟨x - 1, by omega⟩
  rw [Nat.add_sub_cancel] at hget
  simp only [lastOutcomeMask, List.getD_eq_getElem?_getD, List.getElem?_cons_succ, List.getElem?_map, hget, Option.map_some, Option.getD_some, Bool.and_eq_true, decide_eq_true_eq] at hm
  have hv := (mem_lexorder I.scenario).1 holex
  have h1 := hv.party_pos
  have h2 := hv.party_le
  refine ⟨o.party - 1, hm.1, by omega, ?_⟩
  have hkp : o.party = k.1 := by
    unfold Scenario.orthoGroup at ho
    obtain ⟨a, _, rfl⟩ := List.mem_map.1 ho
    rfl
  rw [List.length_map, hkp]
  unfold Scenario.orthoGroup
  rw [List.length_map, List.length_range]
  rfl

/-- Every party about which there are normalisation equalities has at least two outcomes. -/
def TwoOutcomes (I : Input) : Prop := I.isNetwork = true ∨ ∀ p, p < I.scenario.nParties → withChildren I p = true → 2 ≤ I.outcomes.getD p 0

theorem equalities_some (ch : Choice) (name : Atom → String) {cols : List (List Nat)} (hc : ColsOk (nOps I) (notcomm I) (orthomat I) (allCommute I) cols) {sym repr : List Nat}
    {orbits : List (Nat × Nat)} {c : Dict Nat (List Nat)} (h1 : relaxationMatrix (notcomm I) (orthomat I) (allCommute I) cols (symmetries I) = some (sym, orbits, repr))
    (h2 : symmetrizedCorresp orbits (momentMatrix (notcomm I) (orthomat I) (allCommute I) cols).tbl repr = some c) (ho : TwoOutcomes I) :
    ∃ eqs rows, indexEqualities I cols sym = some eqs ∧ eqs.mapM (momentRow (momentIndex I ch name (sym.contains 0) c)) = some rows := by
  by_cases hnet : I.isNetwork = true
  · exact ⟨[], [], by unfold indexEqualities; rw [if_pos hnet], rfl⟩
  have ho : ∀ p, p < I.scenario.nParties → withChildren I p = true → 2 ≤ I.outcomes.getD p 0 := ho.resolve_left hnet
  obtain ⟨eqs, heqs⟩ := C41_search_never_raises I.scenario (withChildren I) (cardinalities I) (fun p hp => by
    unfold cardinalities
    rw [if_pos hp]
    rfl) cols
  have hlen : sym.length = cols.length * cols.length := by
    have hcon := consistent (operatorList I) (symData I) hc
    obtain ⟨sym', orbits', repr', e', hlen, _⟩ := C19_symmetrization hcon
    have e2 : (some (sym, orbits, repr) : Option _) = some (sym', orbits', repr') := by
      rw [← h1, ← e']; rfl
    simp only [Option.some.injEq, Prod.mk.injEq] at e2
    rw [e2.1]
    exact hlen
  refine ⟨construct eqs ((List.range cols.length).map fun i => (List.range cols.length).map fun j => sym.getD (i * cols.length + j) 0), ?_⟩
  have each : ∀ e ∈ construct eqs ((List.range cols.length).map fun i => (List.range cols.length).map fun j => sym.getD (i * cols.length + j) 0),
      ∃ r, momentRow (momentIndex I ch name (sym.contains 0) c) e = some r := by
    intro e he
    obtain ⟨eq, heq, row, hrow, e1, e2, _⟩ := construct_mem he
    obtain ⟨m, _, i, g, _, hmask, hg, hcol, hcols⟩ := discover_mem heqs heq
    obtain ⟨a, ha, rfl⟩ := List.mem_map.1 hrow
    have ha := List.mem_range.1 ha
    have entry : ∀ j, j < cols.length → ((List.range cols.length).map fun j => sym.getD (a * cols.length + j) 0).getD j 0 ∈ sym := by
      intro j hj
      have hlt : a * cols.length + j < sym.length := by
        rw [hlen]
        calc a * cols.length + j < a * cols.length + cols.length := by omega
          _ = (a + 1) * cols.length := by rw [Nat.add_mul, Nat.one_mul]
          _ ≤ cols.length * cols.length := Nat.mul_le_mul_right _ ha
      rw [List.getD_eq_getElem?_getD, List.getElem?_map, List.getElem?_range hj, Option.map_some, Option.getD_some, List.getD_eq_getElem _ _ hlt]
      exact List.getElem_mem _
    have hl : e.2.length = g.length := by
      rw [e2.length_eq, List.length_map, ← hcols.length_eq, List.length_map]
    obtain ⟨p, hp, hpl, hpg⟩ := group_length hmask hg
    have h2' := ho p hpl hp
    unfold momentRow
    rw [if_neg (by omega)]
    obtain ⟨n, hn⟩ := index_isSome ch name hc h1 h2 (k := e.1) (by
      rw [e1]
      exact entry _ (List.getElem?_eq_some_iff.1 hcol).1)
    have hs : ∃ s, (e.2.mapM fun i => Dict.get (momentIndex I ch name (sym.contains 0) c) i) = some s := by
      apply LpSolver.mapM_of_forall
      intro x hx
      obtain ⟨j, hj, rfl⟩ := List.mem_map.1 (e2.mem_iff.1 hx)
      refine index_isSome ch name hc h1 h2 (entry j ?_)
      exact (Normalization.forall₂_cols_sum (R := ℤ) (fun _ => 0) hcols).2 j hj
    obtain ⟨s, hs⟩ := hs
    rw [hn, Option.bind_some, hs]
    exact ⟨_, rfl⟩
  obtain ⟨rows, hrows⟩ := LpSolver.mapM_of_forall each
  refine ⟨rows, ?_, hrows⟩
  unfold indexEqualities
  rw [if_neg hnet, heqs]
  rfl

/-- `generate_relaxation` succeeds. -/
theorem build_succeeds {ch : Choice} (hch : UsualChoice ch I) (name : Atom → String) (hS : copiesOf I.scenario ≤ 254) {cols : List (List Nat)}
    (hc : ColsOk (nOps I) (notcomm I) (orthomat I) (allCommute I) cols) (hcl : ClosedUnder I cols) (ho : TwoOutcomes I) : ∃ B, build I cols ch name = some B := by
  obtain ⟨sym, orbits, repr, h1, _⟩ := C19_every_problem I.scenario I.D I.anyNonclassical (allCommute I) cols hc
  have h1 : relaxationMatrix (notcomm I) (orthomat I) (allCommute I) cols (symmetries I) = some (sym, orbits, repr) := h1
  obtain ⟨c, h2⟩ := symmetrizedCorresp_some hc h1
  have h3 := moments_nodup hch name hS hc hcl h1 h2
  obtain ⟨eqs, rows, h4, h5⟩ := equalities_some ch name hc h1 h2 ho
  unfold build
  rw [h1, Option.bind_some, h2, Option.bind_some]
  dsimp only
  rw [if_pos h3, h4, Option.bind_some, h5]
  exact ⟨_, rfl⟩

end Verif.Generate

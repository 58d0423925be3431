import Verif.Generate.Orbit
import Verif.SymMM.ColumnsProps
/-!
`generate_relaxation` succeeds when every relabelling of the copies of the sources maps the generating set to itself.
-/
namespace Verif.Generate
open Verif.Common Verif.Canon Verif.Canon.Spec Verif.Scenario Verif.Components Verif.Moment Verif.MomentMatrix Verif.SymMM Verif.SdpRepr Verif.SdpEnd Verif.SdpNames Verif.Symmetry
open Verif.Normalization (opEq_range)
open Verif.State (Dict Mon)
open Verif.EndToEnd (Input)

variable {I : Input}

/-- Every relabelling of the copies of the sources maps the generating set to itself, up to the order of commuting operators. -/
def ClosedUnder (I : Input) (cols : List (List Nat)) : Prop :=
  ∀ r ∈ symmetries I, ∀ m ∈ cols, ∃ m' ∈ cols, CommEq (fun a b => notcomm I a b = false) (m.map fun x => r.getD x x) m'

/-! ### The words of the table -/

theorem hash_nonzero {m1 m2 h : List Nat} (h1 : InRange I m1) (h2 : InRange I m2) (e : monHash (notcomm I) (orthomat I) (allCommute I) m1 m2 = some h) : 0 ∉ h := by
  have hd : InRange I (dotMon m1 m2) := inRange_append.2 ⟨inRange_reverse.2 h1, h2⟩
  have hr := canonical_reduced hd
  unfold monHash at e
  dsimp only at e
  split at e
  · cases e
  · rename_i hz
    have hz' : 0 ∉ toCanonical (notcomm I) (orthomat I) (allCommute I) false (dotMon m1 m2) := by simpa [List.contains_iff_mem] using hz
    split at e
    · rw [← Option.some.inj e]
      unfold lexMin
      split
      · exact hz'
      · have h3 := Positivity.reduced_reverse (operatorList I).nc_symm hr
        rw [canonAny h3 (fun h => (allCommute_iff I).1 h)]
        have h5 := canon_sound (notcomm I) (toCanonical (notcomm I) (orthomat I) (allCommute I) false (dotMon m1 m2)).reverse
        exact fun hx => hz' (List.mem_reverse.1 (h5.perm.mem_iff.2 hx))
    · rw [← Option.some.inj e]
      exact hz'

theorem table_nonzero {cols : List (List Nat)} (hc : ∀ m ∈ cols, InRange I m) :
    ∀ t ∈ (momentMatrix (notcomm I) (orthomat I) (allCommute I) cols).tbl, 0 ∉ t.1 := by
  have hD : ∀ i, InRange I (cols.getD i []) := by
    intro i
    rcases h : cols[i]? with _ | m
    · rw [List.getD_eq_getElem?_getD, h]
      intro x hx
      simp at hx
    · rw [List.getD_eq_getElem?_getD, h]
      exact hc m (List.mem_of_getElem? h)
  have gen : ∀ (l : List (Nat × Nat)) (s : MomentMatrix.St), (∀ t ∈ s.tbl, 0 ∉ t.1) →
      ∀ t ∈ (l.foldl (MomentMatrix.step (notcomm I) (orthomat I) (allCommute I) cols) s).tbl, 0 ∉ t.1 := by
    intro l
    induction l with
    | nil => intro s hs; exact hs
    | cons ij l ih =>
      intro s hs
      apply ih
      unfold MomentMatrix.step
      split
      · exact hs
      · rename_i h e
        split
        · exact hs
        · intro t ht
          rcases List.mem_append.1 ht with ht | ht
          · exact hs t ht
          · rw [List.mem_singleton.1 ht]
            exact hash_nonzero (hD _) (hD _) e
  exact gen _ _ (by intro t ht; cases ht)

/-! ### The representatives -/

/-- A representative other than 0 is an entry of the moment matrix. -/
theorem repr_entry {cols : List (List Nat)} {sym repr : List Nat} {orbits : List (Nat × Nat)}
    (h : relaxationMatrix (notcomm I) (orthomat I) (allCommute I) cols (symmetries I) = some (sym, orbits, repr)) {idx : Nat} (hidx : idx ∈ repr) (h1 : 1 ≤ idx) :
    ∃ i j, i < cols.length ∧ j < cols.length ∧ (momentMatrix (notcomm I) (orthomat I) (allCommute I) cols).mat i j = idx := by
  have cell : ∀ v ∈ ravel cols.length (momentMatrix (notcomm I) (orthomat I) (allCommute I) cols).mat,
      ∃ i j, i < cols.length ∧ j < cols.length ∧ (momentMatrix (notcomm I) (orthomat I) (allCommute I) cols).mat i j = v := by
    intro v hv
    unfold ravel at hv
    obtain ⟨x, hx, rfl⟩ := List.mem_map.1 hv
    have hx := List.mem_range.1 hx
    have hp : 0 < cols.length := by
      rcases Nat.eq_zero_or_pos cols.length with h | h
      · rw [h] at hx; omega
      · exact h
    exact ⟨_, _, Nat.div_lt_of_lt_mul hx, Nat.mod_lt _ hp, rfl⟩
  unfold relaxationMatrix applySymmetries at h
  split at h
  · simp only [Option.some.injEq, Prod.mk.injEq] at h
    obtain ⟨_, _, rfl⟩ := h
    have hlt := List.mem_range.1 hidx
    rw [C18_entries_consecutive _ _ _ _ _ (by omega)]
    have hmax : ∀ (l : List Nat) (a : Nat), (∀ v ∈ l, v ≤ (momentMatrix (notcomm I) (orthomat I) (allCommute I) cols).tbl.length) →
        a ≤ (momentMatrix (notcomm I) (orthomat I) (allCommute I) cols).tbl.length → l.foldl max a ≤ (momentMatrix (notcomm I) (orthomat I) (allCommute I) cols).tbl.length := by
      intro l
      induction l with
      | nil => intro a _ ha; exact ha
      | cons b l ih =>
        intro a hl ha
        rw [List.foldl_cons]
        exact ih _ (fun v hv => hl v (List.mem_cons_of_mem _ hv)) (Nat.max_le.2 ⟨ha, hl b (by simp)⟩)
    have := hmax (ravel cols.length (momentMatrix (notcomm I) (orthomat I) (allCommute I) cols).mat) 0 (fun v hv => by
      rcases Nat.eq_zero_or_pos v with h0 | h0
      · omega
      · exact (C18_entries_consecutive (notcomm I) (orthomat I) (allCommute I) cols v (by omega)).1 (cell v hv)) (Nat.zero_le _)
    omega
  · obtain ⟨s, hs, e⟩ := Option.map_eq_some_iff.1 h
    simp only [Prod.mk.injEq] at e
    obtain ⟨_, _, rfl⟩ := e
    apply cell
    have gen : ∀ (ps : List (List Nat)) (s s' : SymMM.St), (∀ v ∈ s.repr, 1 ≤ v → v ∈ ravel cols.length (momentMatrix (notcomm I) (orthomat I) (allCommute I) cols).mat) →
        ps.foldlM (SymMM.step cols.length) s = some s' → ∀ v ∈ s'.repr, 1 ≤ v → v ∈ ravel cols.length (momentMatrix (notcomm I) (orthomat I) (allCommute I) cols).mat := by
      intro ps
      induction ps with
      | nil =>
        intro s s' hs e
        simp only [List.foldlM_nil, Option.pure_def, Option.some.injEq] at e
        subst e; exact hs
      | cons p ps ih =>
        intro s s' hs e
        rw [List.foldlM_cons] at e
        obtain ⟨t, ht, e⟩ := Option.bind_eq_some_iff.1 e
        refine ih t s' ?_ e
        unfold SymMM.step at ht
        split at ht
        · dsimp only at ht
          split at ht
          · rw [← Option.some.inj ht]
            intro v hv hv1
            obtain ⟨k, _, rfl⟩ := List.mem_map.1 hv
            rcases hk : s.repr[k]? with _ | u
            · rw [List.getD_eq_getElem?_getD, hk] at hv1
              simp at hv1
            · rw [List.getD_eq_getElem?_getD, hk] at hv1 ⊢
              exact hs u (List.mem_of_getElem? hk) hv1
          · rw [← Option.some.inj ht]
            exact hs
        · cases ht
    exact gen _ _ _ (fun v hv _ => mem_npUnique.1 hv) hs idx hidx h1

/-- The dictionary from indices to words is computed. -/
theorem symmetrizedCorresp_some {cols : List (List Nat)} (hc : ColsOk (nOps I) (notcomm I) (orthomat I) (allCommute I) cols) {sym repr : List Nat} {orbits : List (Nat × Nat)}
    (h : relaxationMatrix (notcomm I) (orthomat I) (allCommute I) cols (symmetries I) = some (sym, orbits, repr)) :
    ∃ c, symmetrizedCorresp orbits (momentMatrix (notcomm I) (orthomat I) (allCommute I) cols).tbl repr = some c := by
  have hcon := consistent (operatorList I) (symData I) hc
  obtain ⟨sym', orbits', repr', e', hlen, hrel, horb, hrepr⟩ := C19_symmetrization hcon
  have e2 : (some (sym, orbits, repr) : Option _) = some (sym', orbits', repr') := by
    rw [← h, ← e']; rfl
  simp only [Option.some.injEq, Prod.mk.injEq] at e2
  obtain ⟨rfl, rfl, rfl⟩ := e2
  have each : ∀ idx ∈ repr.filter fun idx => decide (1 ≤ idx), ∃ k w, orbits.lookup idx = some k ∧ corresp (momentMatrix (notcomm I) (orthomat I) (allCommute I) cols).tbl idx = some w := by
    intro idx hidx
    obtain ⟨hidx, h1⟩ := List.mem_filter.1 hidx
    have h1 : 1 ≤ idx := by simpa using h1
    obtain ⟨i, j, hi, hj, e⟩ := repr_entry h hidx h1
    have hpos : 0 < cols.length := by omega
    have hlt : i * cols.length + j < cols.length * cols.length := by
      calc i * cols.length + j < i * cols.length + cols.length := by omega
        _ = (i + 1) * cols.length := by rw [Nat.add_mul, Nat.one_mul]
        _ ≤ cols.length * cols.length := Nat.mul_le_mul_right _ hi
    obtain ⟨k, _, hk⟩ := horb (i * cols.length + j) idx (by
      rw [ravel_get hlt, Nat.mul_comm i, Nat.mul_add_div hpos, Nat.div_eq_of_lt hj, Nat.add_zero, Nat.mul_add_mod, Nat.mod_eq_of_lt hj, e])
    obtain ⟨_, w, hw, _⟩ := C18_index_table (operatorList I) (allCommute I) hc.comm cols hc.lt i j _ _ (List.getElem?_eq_getElem hi) (List.getElem?_eq_getElem hj) (by omega)
    rw [e] at hw
    have hm : ∃ t ∈ (momentMatrix (notcomm I) (orthomat I) (allCommute I) cols).tbl, (t.2 == idx) = true := by
      obtain ⟨l1, l2, heq, _⟩ := List.lookup_eq_some_iff.1 hw
      exact ⟨(w, idx), by rw [heq]; simp, by simp⟩
    obtain ⟨t, ht⟩ := Option.isSome_iff_exists.1 (List.find?_isSome.2 hm)
    exact ⟨k, t.1, hk, by unfold corresp; rw [ht]; rfl⟩
  unfold symmetrizedCorresp
  revert each
  generalize (repr.filter fun idx => decide (1 ≤ idx)) = l
  generalize ([] : Dict Nat (List Nat)) = d
  intro each
  induction l generalizing d with
  | nil => exact ⟨d, rfl⟩
  | cons a l ih =>
    obtain ⟨k, w, hk, hw⟩ := each a (by simp)
    rw [List.foldlM_cons, hk, hw]
    exact ih _ fun x hx => each x (List.mem_cons_of_mem _ hx)

/-! ### No two indices have the same moment -/

/-- Equal as operators up to the adjoint. -/
def Upto (I : Input) (u v : List Nat) : Prop :=
  OpEq (nOps I) (fun a b => notcomm I a b = false) (fun a b => orthomat I a b = true) u v ∨
  OpEq (nOps I) (fun a b => notcomm I a b = false) (fun a b => orthomat I a b = true) u v.reverse

theorem Upto.symm {u v : List Nat} (h : Upto I u v) : Upto I v u := by
  rcases h with h | h
  · exact .inl h.symm
  · have := opEq_reverse (operatorList I) h
    rw [List.reverse_reverse] at this
    exact .inr this.symm

theorem Upto.trans {u v w : List Nat} (h1 : Upto I u v) (h2 : Upto I v w) : Upto I u w := by
  rcases h1 with h1 | h1
  · rcases h2 with h2 | h2
    · exact .inl (h1.trans h2)
    · exact .inr (h1.trans h2)
  · rcases h2 with h2 | h2
    · exact .inr (h1.trans (opEq_reverse (operatorList I) h2))
    · have := opEq_reverse (operatorList I) h2
      rw [List.reverse_reverse] at this
      exact .inl (h1.trans this)

theorem Upto.map {u v : List Nat} (h : Upto I u v) {r : List Nat} (hr : r ∈ symmetries I) : Upto I (u.map fun x => r.getD x x) (v.map fun x => r.getD x x) := by
  rcases h with h | h
  · exact .inl ((symData I).opEq (nOps_pos I) hr h)
  · right
    have := (symData I).opEq (nOps_pos I) hr h
    unfold mapW at this
    rwa [List.map_reverse] at this

theorem moments_nodup {ch : Choice} (hch : UsualChoice ch I) (name : Atom → String) (hS : copiesOf I.scenario ≤ 254) {cols : List (List Nat)}
    (hc : ColsOk (nOps I) (notcomm I) (orthomat I) (allCommute I) cols) (hcl : ClosedUnder I cols) {sym repr : List Nat} {orbits : List (Nat × Nat)} {c : Dict Nat (List Nat)}
    (h1 : relaxationMatrix (notcomm I) (orthomat I) (allCommute I) cols (symmetries I) = some (sym, orbits, repr))
    (h2 : symmetrizedCorresp orbits (momentMatrix (notcomm I) (orthomat I) (allCommute I) cols).tbl repr = some c) :
    ((momentIndex I ch name (sym.contains 0) c).map Prod.snd).Nodup := by
  obtain ⟨hkeys, hfrom, _⟩ := symmetrizedCorresp_get h2
  have words : ∀ k w, c.get k = some w → InRange I w ∧ 0 ∉ w ∧ Reduced (notcomm I) (orthomat I) w := by
    intro k w hk
    obtain ⟨idx, _, _, _, hw⟩ := hfrom k w hk
    unfold corresp at hw
    obtain ⟨t, ht, rfl⟩ := Option.map_eq_some_iff.1 hw
    have hm := List.mem_of_find?_eq_some ht
    exact ⟨(table_reduced hc.lt t hm).2, table_nonzero hc.lt t hm, (table_reduced hc.lt t hm).1⟩
  have key : ∀ k k' w w', c.get k = some w → c.get k' = some w' → momentOf I ch name w = momentOf I ch name w' → k = k' := by
    intro k k' w w' hk hk' e
    obtain ⟨a1, a2, a3⟩ := words k w hk
    obtain ⟨b1, b2, b3⟩ := words k' w' hk'
    obtain ⟨i, j, m1, m2, hi, hj, hs, _, _, ho⟩ := index_cell hc h1 h2 hk
    obtain ⟨i', j', m3, m4, hi', hj', hs', _, _, ho'⟩ := index_cell hc h1 h2 hk'
    have u1 : Upto I w (m1.reverse ++ m2) := by
      rcases ho with h | h
      · exact .inl h
      · right; simpa using h
    have u2 : Upto I w' (m3.reverse ++ m4) := by
      rcases ho' with h | h
      · exact .inl h
      · right; simpa using h
    have u3 : ∃ r ∈ symmetries I, Upto I (w.map fun x => r.getD x x) w' := by
      rcases orbit_of_moment hch name hS a1 a2 a3 b1 b2 b3 e with ⟨r, hr, h⟩ | ⟨r, hr, h⟩
      · exact ⟨r, hr, .inl (OpEq.of_commEq h)⟩
      · exact ⟨r, hr, .inr (OpEq.of_commEq h)⟩
    obtain ⟨r, hr, u3⟩ := u3
    have u4 : Upto I ((m1.reverse ++ m2).map fun x => r.getD x x) (m3.reverse ++ m4) := ((u1.map hr).symm.trans u3).trans u2
    obtain ⟨sym', orbits', repr', e', hiff⟩ := C19_every_problem I.scenario I.D I.anyNonclassical (allCommute I) cols hc
    have e2 : (some (sym, orbits, repr) : Option _) = some (sym', orbits', repr') := by
      rw [← h1, ← e']; rfl
    simp only [Option.some.injEq, Prod.mk.injEq] at e2
    obtain ⟨rfl, rfl, rfl⟩ := e2
    have := (hiff i j i' j' m1 m2 m3 m4 hi hj hi' hj').2 ⟨r, hr, hcl r hr, by
      rcases u4 with h | h
      · exact .inl h
      · right
        rw [List.reverse_append, List.reverse_reverse] at h
        exact h⟩
    rw [hs, hs'] at this
    exact Option.some.inj this
  have hnd := momentIndex_nodup (I := I) ch name (sym.contains 0) c
  have hget := fun k => momentIndex_get (I := I) ch name (sym.contains 0) c hkeys k
  rw [List.nodup_iff_pairwise_ne, List.pairwise_map]
  have hnd' : (momentIndex I ch name (sym.contains 0) c).Pairwise fun s t => s.1 ≠ t.1 := List.pairwise_map.1 hnd
  refine hnd'.imp_of_mem ?_
  rintro ⟨k, m⟩ ⟨k', m'⟩ hm hm' hne e
  dsimp only at hne e
  subst e
  have g1 := (State.get_of_mem _ hnd k m).1 hm
  have g2 := (State.get_of_mem _ hnd k' m).1 hm'
  rw [hget] at g1 g2
  rcases hk : c.get k with _ | w <;> rcases hk' : c.get k' with _ | w' <;> rw [hk] at g1 <;> rw [hk'] at g2 <;> dsimp only at g1 g2
  · split at g1
    · split at g2
      · rename_i p q
        exact hne (p.2.trans q.2.symm)
      · cases g2
    · cases g1
  · split at g1
    · obtain ⟨b1, b2, b3⟩ := words k' w' hk'
      exact momentOf_ne_zero hch name hS b1 b2 b3 ((Option.some.inj g2).trans (Option.some.inj g1).symm)
    · cases g1
  · split at g2
    · obtain ⟨b1, b2, b3⟩ := words k w hk
      exact momentOf_ne_zero hch name hS b1 b2 b3 ((Option.some.inj g1).trans (Option.some.inj g2).symm)
    · cases g2
  · exact hne (key k k' w w' hk hk' ((Option.some.inj g1).trans (Option.some.inj g2).symm))

/-- `generate_relaxation` succeeds for networks. -/
theorem build_network {ch : Choice} (hch : UsualChoice ch I) (name : Atom → String) (hS : copiesOf I.scenario ≤ 254) {cols : List (List Nat)}
    (hc : ColsOk (nOps I) (notcomm I) (orthomat I) (allCommute I) cols) (hcl : ClosedUnder I cols) (hnet : I.isNetwork = true) : ∃ B, build I cols ch name = some B := by
  obtain ⟨sym, orbits, repr, h1, _⟩ := C19_every_problem I.scenario I.D I.anyNonclassical (allCommute I) cols hc
  have h1 : relaxationMatrix (notcomm I) (orthomat I) (allCommute I) cols (symmetries I) = some (sym, orbits, repr) := h1
  obtain ⟨c, h2⟩ := symmetrizedCorresp_some hc h1
  have h3 := moments_nodup hch name hS hc hcl h1 h2
  unfold build
  rw [h1, Option.bind_some, h2, Option.bind_some]
  dsimp only
  rw [if_pos h3]
  unfold indexEqualities
  rw [if_pos hnet, Option.bind_some]
  exact ⟨_, rfl⟩

end Verif.Generate

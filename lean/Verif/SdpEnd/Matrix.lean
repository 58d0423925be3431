import Verif.SdpEnd.Capacity
/-!
Every cell of the moment matrix holds the index of a moment whose value is that of the product of the row and the column.
-/
namespace Verif.SdpEnd
open Verif.Common Verif.Canon Verif.Canon.Spec Verif.Scenario Verif.Components Verif.Moment Verif.MomentMatrix Verif.SdpRepr Verif.SymMM Verif.Normalization
open Verif.Symmetry (img sdpSymmetries)
open Verif.State (Dict Mon)
open Verif.EndToEnd (Input)

variable {I : Input}

theorem tbl_nodup (nc om : BMat) (commuting : Bool) (cols : List (List Nat)) : ((momentMatrix nc om commuting cols).tbl.map Prod.fst).Nodup := by
  unfold momentMatrix
  have h0 : (St.init.tbl.map Prod.fst).Nodup := by simp [MomentMatrix.St.init]
  generalize MomentMatrix.St.init = s at h0
  generalize pairs cols.length = l
  induction l generalizing s with
  | nil => exact h0
  | cons p l ih =>
    rw [List.foldl_cons]
    apply ih
    unfold MomentMatrix.step
    split
    · exact h0
    · split
      · exact h0
      · rename_i h hn
        rw [List.map_append, List.nodup_append]
        refine ⟨h0, by simp, ?_⟩
        intro a ha b hb
        simp only [List.map_cons, List.map_nil, List.mem_singleton] at hb
        subst hb
        rintro rfl
        obtain ⟨t, ht, rfl⟩ := List.mem_map.1 ha
        rw [List.lookup_eq_none_iff] at hn
        have := hn t ht
        simp at this

theorem lookup_of_mem {α β : Type} [BEq α] [LawfulBEq α] {l : List (α × β)} (h : (l.map Prod.fst).Nodup) {k : α} {v : β} (hm : (k, v) ∈ l) : l.lookup k = some v := by
  induction l with
  | nil => simp at hm
  | cons t l ih =>
    rw [List.map_cons, List.nodup_cons] at h
    rw [List.lookup_cons]
    rcases List.mem_cons.1 hm with rfl | hm
    · simp
    · have : k ≠ t.1 := by
        rintro rfl
        exact h.1 (List.mem_map.2 ⟨_, hm, rfl⟩)
      have hb : (k == t.1) = false := by simpa using this
      rw [hb]
      exact ih h.2 hm

/-- The monomial of an index is, up to adjoint, the product of the row and the column of some cell with that index. -/
theorem corresp_cell {cols : List (List Nat)} (hc : ColsOk (nOps I) (notcomm I) (orthomat I) (allCommute I) cols) {idx : Nat} {w : List Nat} (h1 : 1 ≤ idx)
    (h : corresp (momentMatrix (notcomm I) (orthomat I) (allCommute I) cols).tbl idx = some w) :
    ∃ i j m1 m2, cols[i]? = some m1 ∧ cols[j]? = some m2 ∧ (momentMatrix (notcomm I) (orthomat I) (allCommute I) cols).mat i j = idx ∧
      (OpEq (nOps I) (fun a b => notcomm I a b = false) (fun a b => orthomat I a b = true) w (m1.reverse ++ m2) ∨
       OpEq (nOps I) (fun a b => notcomm I a b = false) (fun a b => orthomat I a b = true) w (m2.reverse ++ m1)) := by
  unfold corresp at h
  obtain ⟨⟨w', k⟩, hf, e⟩ := Option.map_eq_some_iff.1 h
  simp only at e
  subst e
  have hm := List.mem_of_find?_eq_some hf
  have hk := List.find?_some hf
  simp only [beq_iff_eq] at hk
  subst hk
  have hl := lookup_of_mem (tbl_nodup _ _ _ _) hm
  have inv := inv_momentMatrix (notcomm I) (orthomat I) (allCommute I) cols
  have hv := inv.vals _ _ hl
  have hcnt := inv.count
  obtain ⟨i, j, hi, hj, e⟩ := (C18_entries_consecutive (notcomm I) (orthomat I) (allCommute I) cols k (by omega)).2 (by omega)
  have hnz : (momentMatrix (notcomm I) (orthomat I) (allCommute I) cols).mat i j ≠ 0 := by omega
  obtain ⟨_, w2, h2, h3⟩ := C18_index_table (operatorList I) (allCommute I) hc.comm cols hc.lt i j _ _ (List.getElem?_eq_getElem hi) (List.getElem?_eq_getElem hj) hnz
  rw [e] at h2
  have := inv.inj _ _ _ hl h2
  subst this
  exact ⟨i, j, _, _, List.getElem?_eq_getElem hi, List.getElem?_eq_getElem hj, e, h3⟩

/-- `symmetrized_corresp` gives each index the monomial of a representative. -/
theorem symmetrizedCorresp_get {orbits : List (Nat × Nat)} {tbl : List (List Nat × Nat)} {repr : List Nat} {c : Dict Nat (List Nat)}
    (h : symmetrizedCorresp orbits tbl repr = some c) :
    c.keys.Nodup ∧ (∀ k w, c.get k = some w → ∃ idx ∈ repr, 1 ≤ idx ∧ orbits.lookup idx = some k ∧ corresp tbl idx = some w) ∧
      (∀ idx ∈ repr, 1 ≤ idx → ∃ k w, orbits.lookup idx = some k ∧ c.get k = some w) := by
  have gen : ∀ (l : List Nat) (d c : Dict Nat (List Nat)),
      l.foldlM (fun d idx => (orbits.lookup idx).bind fun o => (corresp tbl idx).map fun w => Dict.set d o w) d = some c → d.keys.Nodup →
      c.keys.Nodup ∧ (∀ k w, c.get k = some w → d.get k = some w ∨ ∃ idx ∈ l, orbits.lookup idx = some k ∧ corresp tbl idx = some w) ∧
        (∀ idx ∈ l, ∃ k w, orbits.lookup idx = some k ∧ c.get k = some w) ∧ (∀ k w, d.get k = some w → ∃ w', c.get k = some w') := by
    intro l
    induction l with
    | nil =>
      intro d c h hd
      simp only [List.foldlM_nil, Option.pure_def, Option.some.injEq] at h
      subst h
      exact ⟨hd, fun k w h => .inl h, by simp, fun k w h => ⟨w, h⟩⟩
    | cons x l ih =>
      intro d c h hd
      rw [List.foldlM_cons, Option.bind_eq_bind, Option.bind_eq_some_iff] at h
      obtain ⟨d', h1, h2⟩ := h
      obtain ⟨o, ho, h3⟩ := Option.bind_eq_some_iff.1 h1
      obtain ⟨w, hw, rfl⟩ := Option.map_eq_some_iff.1 h3
      obtain ⟨q1, q2, q3, q4⟩ := ih _ _ h2 (State.nodup_set d o w hd)
      refine ⟨q1, ?_, ?_, ?_⟩
      · intro k u hk
        rcases q2 k u hk with h | ⟨idx, hi, h, h'⟩
        · rw [State.get_set] at h
          split at h
          · rename_i e
            subst e
            simp only [Option.some.injEq] at h
            subst h
            exact .inr ⟨x, by simp, ho, hw⟩
          · exact .inl h
        · exact .inr ⟨idx, List.mem_cons_of_mem _ hi, h, h'⟩
      · intro idx hi
        rcases List.mem_cons.1 hi with rfl | hi
        · obtain ⟨w', h'⟩ := q4 o w (by rw [State.get_set, if_pos rfl])
          exact ⟨o, w', ho, h'⟩
        · exact q3 idx hi
      · intro k u hk
        by_cases e : o = k
        · subst e
          exact q4 o w (by rw [State.get_set, if_pos rfl])
        · exact q4 k u (by rw [State.get_set, if_neg e]; exact hk)
  obtain ⟨q1, q2, q3, _⟩ := gen _ _ _ h (by simp [State.Dict.keys])
  refine ⟨q1, ?_, ?_⟩
  · intro k w hk
    rcases q2 k w hk with h | ⟨idx, hi, h1, h2⟩
    · simp at h
    · rw [List.mem_filter, decide_eq_true_eq] at hi
      exact ⟨idx, hi.1, hi.2, h1, h2⟩
  · intro idx hi h1
    exact q3 idx (List.mem_filter.2 ⟨hi, by simpa using h1⟩)

/-- `compmoment_from_idx`. -/
theorem momentIndex_get (ch : Choice) (name : Atom → String) (z : Bool) (c : Dict Nat (List Nat)) (hc : c.keys.Nodup) (k : Nat) :
    (momentIndex I ch name z c).get k = match c.get k with
      | some w => some (momentOf I ch name w)
      | none => if z = true ∧ k = 0 then some [[0]] else none := by
  have gen : ∀ (c : Dict Nat (List Nat)) (d : Dict Nat Mon), c.keys.Nodup →
      (c.foldl (fun d t => d.set t.1 (momentOf I ch name t.2)) d).get k = match c.get k with
        | some w => some (momentOf I ch name w)
        | none => d.get k := by
    intro c
    induction c with
    | nil => intro d _; rfl
    | cons t c ih =>
      intro d hd
      have hd' : t.1 ∉ State.Dict.keys c ∧ (State.Dict.keys c).Nodup := by
        have : (t.1 :: State.Dict.keys c).Nodup := hd
        exact List.nodup_cons.1 this
      rw [List.foldl_cons, ih _ hd'.2]
      obtain ⟨a, b⟩ := t
      rw [State.get_cons]
      by_cases e : a = k
      · subst e
        rw [if_pos rfl]
        have : State.Dict.get c a = none := (State.get_none c a).2 hd'.1
        rw [this]
        simp only [State.get_set, if_true]
      · rw [if_neg e]
        rcases State.Dict.get c k with _ | w
        · simp only [State.get_set, if_neg e]
        · rfl
  unfold momentIndex
  rw [gen c _ hc]
  rcases c.get k with _ | w
  · cases z with
    | true =>
      by_cases e : k = 0
      · subst e; simp [State.get_cons]
      · have : ¬ (0 = k) := fun h => e h.symm
        simp [State.get_cons, e, this]
    | false => simp
  · rfl

theorem momentIndex_nodup (ch : Choice) (name : Atom → String) (z : Bool) (c : Dict Nat (List Nat)) : (momentIndex I ch name z c).keys.Nodup := by
  unfold momentIndex
  have h0 : (State.Dict.keys (if z = true then [(0, [[0]])] else [] : Dict Nat Mon)).Nodup := by split <;> simp [State.Dict.keys]
  generalize (if z = true then [(0, [[0]])] else [] : Dict Nat Mon) = d at h0
  induction c generalizing d with
  | nil => exact h0
  | cons t c ih =>
    rw [List.foldl_cons]
    exact ih _ (State.nodup_set _ _ _ h0)

variable {R : Type} [Ring R] [StarRing R] [Algebra ℝ R] (M : InflatedModel I R)

/-- The number which the model gives to the product of two columns. -/
noncomputable def cellValue (cols : List (List Nat)) (i j : Nat) : ℝ := (M.φ (star (op M.ρ (cols.getD i [])) * op M.ρ (cols.getD j []))).re

theorem star_op (u v : List Nat) : star (op M.ρ u) * op M.ρ v = op M.ρ (u.reverse ++ v) := by
  rw [← op_reverse]; simp [op]

theorem re_reverse (u v : List Nat) : (M.φ (op M.ρ (u.reverse ++ v))).re = (M.φ (op M.ρ (v.reverse ++ u))).re := by
  have : op M.ρ (u.reverse ++ v) = star (op M.ρ (v.reverse ++ u)) := by
    rw [← op_reverse]; simp
  rw [this, M.hermitian, Complex.conj_re]

/-- Cells with the same index have the same value. -/
theorem cells_same {cols : List (List Nat)} (hc : ColsOk (nOps I) (notcomm I) (orthomat I) (allCommute I) cols) {sym repr : List Nat} {orbits : List (Nat × Nat)}
    (h : relaxationMatrix (notcomm I) (orthomat I) (allCommute I) cols (symmetries I) = some (sym, orbits, repr))
    {i j k l : Nat} (hi : i < cols.length) (hj : j < cols.length) (hk : k < cols.length) (hl : l < cols.length)
    (e : sym[i * cols.length + j]? = sym[k * cols.length + l]?) : cellValue M cols i j = cellValue M cols k l := by
  obtain ⟨sym', orbits', repr', h', hiff⟩ := C19_every_problem I.scenario I.D I.anyNonclassical (allCommute I) cols hc
  have : sym' = sym := by
    have h2 : relaxationMatrix (notcomm I) (orthomat I) (allCommute I) cols (symmetries I) = some (sym', orbits', repr') := h'
    rw [h] at h2
    exact (congrArg Prod.fst (Option.some.inj h2)).symm
  subst this
  have hget : ∀ i, i < cols.length → cols[i]? = some (cols.getD i []) := by
    intro i hi; simp [List.getD_eq_getElem?_getD, hi]
  obtain ⟨r, hr, _, h2⟩ := (hiff i j k l _ _ _ _ (hget i hi) (hget j hj) (hget k hk) (hget l hl)).1 e
  have hrange : ∀ i j, i < cols.length → j < cols.length → InRange I ((cols.getD i []).reverse ++ cols.getD j []) := by
    intro i j hi hj
    have hlt : ∀ i, i < cols.length → InRange I (cols.getD i []) := by
      intro i hi
      exact hc.lt _ (List.mem_of_getElem? (hget i hi))
    rw [inRange_append, inRange_reverse]
    exact ⟨hlt i hi, hlt j hj⟩
  unfold cellValue
  rw [star_op, star_op, ← M.symmetric r hr _ (hrange i j hi hj)]
  have hmap : InRange I (((cols.getD i []).reverse ++ cols.getD j []).map (img r)) := by
    intro x hx
    obtain ⟨y, hy, rfl⟩ := List.mem_map.1 hx
    exact (symData I).lt hr (hrange i j hi hj y hy)
  rcases h2 with h2 | h2
  · rw [opEq_op (nOps_pos I) M.operators h2 hmap]
  · rw [opEq_op (nOps_pos I) M.operators h2 hmap, re_reverse]

/-- What `generate_relaxation` produces. -/
theorem build_some {cols : List (List Nat)} {ch : Choice} {name : Atom → String} {B : Built} (h : build I cols ch name = some B) :
    ∃ orbits repr c eqs, relaxationMatrix (notcomm I) (orthomat I) (allCommute I) cols (symmetries I) = some (B.sym, orbits, repr) ∧
      symmetrizedCorresp orbits (momentMatrix (notcomm I) (orthomat I) (allCommute I) cols).tbl repr = some c ∧
      B.index = momentIndex I ch name (B.sym.contains 0) c ∧ (B.index.map Prod.snd).Nodup ∧ indexEqualities I cols B.sym = some eqs ∧
      eqs.mapM (momentRow B.index) = some B.env.minEq ∧
      B.env = ⟨atomInfo I name, ch.dagger, id, B.index.map Prod.snd, hermitianMoments I ch (B.index.map Prod.snd), false,
        if B.sym.contains 0 then some [[0]] else none, B.env.minEq⟩ := by
  unfold build at h
  obtain ⟨⟨sym, orbits, repr⟩, h1, h⟩ := Option.bind_eq_some_iff.1 h
  obtain ⟨c, h2, h⟩ := Option.bind_eq_some_iff.1 h
  dsimp only at h h2
  split at h
  · rename_i hnd
    obtain ⟨eqs, h3, h⟩ := Option.bind_eq_some_iff.1 h
    obtain ⟨rows, h4, h⟩ := Option.map_eq_some_iff.1 h
    subst h
    exact ⟨orbits, repr, c, eqs, h1, h2, rfl, hnd, h3, h4, rfl⟩
  · exact absurd h (by simp)

/-- The number of an index: that of its moment, 0 if it has none. -/
noncomputable def indexValue (B : Built) (k : Nat) : ℝ := ((B.index.get k).map M.value).getD 0

/-- Every cell of the moment matrix holds an index whose number is the value of the product of the row and the column. -/
theorem cell_sound {cols : List (List Nat)} (hc : ColsOk (nOps I) (notcomm I) (orthomat I) (allCommute I) cols) (hcap : copiesOf I.scenario ≤ 254)
    {ch : Choice} (hch : ch.Computed I) {name : Atom → String} {B : Built} (hB : build I cols ch name = some B) :
    B.sym.length = cols.length * cols.length ∧ ∀ i j, i < cols.length → j < cols.length → ∃ k, B.sym[i * cols.length + j]? = some k ∧ indexValue M B k = cellValue M cols i j := by
  obtain ⟨orbits, repr, c, eqs, h1, h2, h3, _⟩ := build_some hB
  have hcon := consistent (operatorList I) (symData I) hc
  obtain ⟨sym', orbits', repr', e', hlen, hrel, horb, hrepr⟩ := C19_symmetrization hcon
  have e2 : (some (B.sym, orbits, repr) : Option _) = some (sym', orbits', repr') := by
    rw [← h1, ← e']; rfl
  simp only [Option.some.injEq, Prod.mk.injEq] at e2
  obtain ⟨rfl, rfl, rfl⟩ := e2
  refine ⟨hlen, ?_⟩
  obtain ⟨hnd, hc1, hc2⟩ := symmetrizedCorresp_get h2
  set n := cols.length with hn
  set mm := momentMatrix (notcomm I) (orthomat I) (allCommute I) cols with hmm
  have hcelllt : ∀ i j, i < n → j < n → i * n + j < n * n := by
    intro i j hi hj
    calc i * n + j < i * n + n := by omega
      _ = (i + 1) * n := by rw [Nat.add_mul, Nat.one_mul]
      _ ≤ n * n := Nat.mul_le_mul_right _ hi
  have hdm : ∀ i j, j < n → (i * n + j) / n = i ∧ (i * n + j) % n = j := by
    intro i j hj
    constructor
    · rw [Nat.mul_comm, Nat.mul_add_div (by omega), Nat.div_eq_of_lt hj, Nat.add_zero]
    · rw [Nat.mul_comm, Nat.mul_add_mod, Nat.mod_eq_of_lt hj]
  have hrav : ∀ i j, i < n → j < n → (ravel n mm.mat)[i * n + j]? = some (mm.mat i j) := by
    intro i j hi hj
    rw [ravel_get (hcelllt i j hi hj), (hdm i j hj).1, (hdm i j hj).2]
  -- the index of a cell, and the orbit of its entry
  have hcell : ∀ i j, i < n → j < n → ∃ k, B.sym[i * n + j]? = some k ∧ orbits.lookup (mm.mat i j) = some k := fun i j hi hj => horb _ _ (hrav i j hi hj)
  have hzero : ∀ i j, i < n → j < n → mm.mat i j = 0 → cellValue M cols i j = 0 := by
    intro i j hi hj h0
    have hop := (C18_zero_entries (operatorList I) (allCommute I) hc.comm cols hc.lt i j _ _ (List.getElem?_eq_getElem hi) (List.getElem?_eq_getElem hj)).1 h0
    unfold cellValue
    rw [star_op, List.getD_eq_getElem _ _ hi, List.getD_eq_getElem _ _ hj, opEq_op (nOps_pos I) M.operators hop]
    · simp [op, M.operators.zero]
    · intro x hx
      rcases List.mem_append.1 hx with hx | hx
      · exact hc.lt _ (List.getElem_mem hi) x (List.mem_reverse.1 hx)
      · exact hc.lt _ (List.getElem_mem hj) x hx
  -- the moment of an index
  have hmom : ∀ k w, c.get k = some w → ∀ i j, i < n → j < n → B.sym[i * n + j]? = some k → M.value (momentOf I ch name w) = cellValue M cols i j := by
    intro k w hk i j hi hj hs
    obtain ⟨idx, _, hidx, ho, hco⟩ := hc1 k w hk
    obtain ⟨a, b, m1, m2, ha, hb, e, hop⟩ := corresp_cell hc hidx hco
    have ha' := (List.getElem?_eq_some_iff.1 ha).1
    have hb' := (List.getElem?_eq_some_iff.1 hb).1
    obtain ⟨k', hk1, hk2⟩ := hcell a b ha' hb'
    have hk3 : k' = k := by
      have he : mm.mat a b = idx := e
      rw [he, ho] at hk2
      exact (Option.some.inj hk2).symm
    subst hk3
    have hr : InRange I (m1.reverse ++ m2) ∧ InRange I (m2.reverse ++ m1) := by
      rw [inRange_append, inRange_reverse, inRange_append, inRange_reverse]
      have q1 : InRange I m1 := hc.lt _ (List.mem_of_getElem? ha)
      have q2 : InRange I m2 := hc.lt _ (List.mem_of_getElem? hb)
      exact ⟨⟨q1, q2⟩, q2, q1⟩
    have hcv : cellValue M cols a b = (M.φ (op M.ρ (m1.reverse ++ m2))).re := by
      unfold cellValue
      rw [star_op]
      have q1 : cols.getD a [] = m1 := by rw [List.getD_eq_getElem?_getD, ha]; rfl
      have q2 : cols.getD b [] = m2 := by rw [List.getD_eq_getElem?_getD, hb]; rfl
      rw [q1, q2]
    rw [← cells_same M hc h1 ha' hb' hi hj (hk1.trans hs.symm), hcv]
    rcases hop with hop | hop
    · have hw : InRange I w := (opEq_range (nOps_pos I) hop).2 hr.1
      rw [momentOf_re M hch name hw (fun h0 => capacity_word hcap hw h0), opEq_op (nOps_pos I) M.operators hop hw]
    · have hw : InRange I w := (opEq_range (nOps_pos I) hop).2 hr.2
      rw [momentOf_re M hch name hw (fun h0 => capacity_word hcap hw h0), opEq_op (nOps_pos I) M.operators hop hw, re_reverse]
  -- an index without a moment of its own belongs to a vanishing cell
  have hnone : ∀ k, c.get k = none → ∀ i j, i < n → j < n → B.sym[i * n + j]? = some k → cellValue M cols i j = 0 := by
    intro k hk i j hi hj hs
    -- the least entry of the orbit
    have hex : ∃ u x, (ravel n mm.mat)[x]? = some u ∧ Related n (ravel n mm.mat) (columnsSymmetries (notcomm I) (orthomat I) (allCommute I) cols (symmetries I)) (i * n + j) x := by
      have := (hrel _ _ (hcelllt i j hi hj) (hcelllt i j hi hj)).1 rfl
      exact ⟨_, _, hrav i j hi hj, this⟩
    classical
    obtain ⟨x, hx, hxr⟩ := Nat.find_spec hex
    set u := Nat.find hex with hu
    have hxlt : x < n * n := by
      have := (List.getElem?_eq_some_iff.1 hx).1
      simpa [ravel] using this
    have hsx : B.sym[i * n + j]? = B.sym[x]? := (hrel _ _ (hcelllt i j hi hj) hxlt).2 hxr
    have hurep : u ∈ repr := by
      rw [hrepr u (List.mem_of_getElem? hx)]
      intro x' y' u' hx' hy' hr'
      apply Nat.find_min' hex
      refine ⟨y', hy', ?_⟩
      have hx'lt : x' < n * n := by simpa [ravel] using (List.getElem?_eq_some_iff.1 hx').1
      have hy'lt : y' < n * n := by simpa [ravel] using (List.getElem?_eq_some_iff.1 hy').1
      apply (hrel _ _ (hcelllt i j hi hj) hy'lt).1
      rw [hsx, ← (hrel _ _ hx'lt hy'lt).2 hr']
      obtain ⟨w1, e1, e2⟩ := horb x u hx
      obtain ⟨w2, e3, e4⟩ := horb x' u hx'
      rw [e1, e3, ← e2, ← e4]
    have hk' : orbits.lookup u = some k := by
      obtain ⟨w1, e1, e2⟩ := horb x u hx
      rw [e2, ← e1, ← hsx, hs]
    have hu0 : u = 0 := by
      by_contra hne
      obtain ⟨k2, w, q1, q2⟩ := hc2 u hurep (by omega)
      rw [hk'] at q1
      have := Option.some.inj q1
      subst this
      rw [hk] at q2
      simp at q2
    have hn0 : 0 < n := by omega
    have hxi : x / n < n := Nat.div_lt_of_lt_mul hxlt
    have hxj : x % n < n := Nat.mod_lt _ hn0
    have hxe : x / n * n + x % n = x := by rw [Nat.mul_comm]; exact Nat.div_add_mod x n
    have hm0 : mm.mat (x / n) (x % n) = 0 := by
      have := hrav (x / n) (x % n) hxi hxj
      rw [hxe, hx, hu0] at this
      exact (Option.some.inj this).symm
    have := cells_same M hc h1 hi hj hxi hxj (by rw [← hn, hxe]; exact hsx)
    rw [this]
    exact hzero _ _ hxi hxj hm0
  intro i j hi hj
  obtain ⟨k, hk, _⟩ := hcell i j hi hj
  refine ⟨k, hk, ?_⟩
  unfold indexValue
  rw [h3, momentIndex_get ch name _ c hnd k]
  rcases hck : c.get k with _ | w
  · simp only
    rw [hnone k hck i j hi hj hk]
    split
    · have : M.value [[0]] = 0 := by
        unfold InflatedModel.value InflatedModel.moment
        simp [val_zero M (a := [0]) (by simp [isZero])]
      simpa using this
    · rfl
  · simp only
    exact hmom k w hck i j hi hj hk

end Verif.SdpEnd

import Verif.CollinsGisin.Rows
/-! C28: the generated equalities and inequalities hold for every behaviour. -/
namespace Verif.CollinsGisin
open Verif.Orbits
open Verif.Common

variable {n : Nat} {adj : Nat → Nat → Bool}

/-- Value of each column of the linear program in a behaviour: the probability of the event it stands for. -/
def columnValue {K : Type} (n : Nat) (gs : Groups) (adj : Nat → Nat → Bool) (symReq : Bool) (syms : List (List Nat)) (p : List Bool → K)
    (c : Nat) : K :=
  p ((representatives symReq syms (rawMonomials n gs adj)).getD c [])

theorem column_of_raw {K : Type} {gs : Groups} (h : BlocksOk n (blocksOf gs)) (hs : ∀ a b, adj a b = adj b a)
    {symReq : Bool} {syms : List (List Nat)} (hG : symReq = true → IsGroup n syms) {p : List Bool → K}
    (hi : symReq = true → Invariant n syms p) {e : List Nat} (he : IsEvent (blocksOf gs) adj e) (hcg : CG gs e) :
    ∃ c, columnOf symReq syms (rawMonomials n gs adj) (boolKey n e) = some c ∧
      columnValue n gs adj symReq syms p c = p (boolKey n e) := by
  have hraw := (mem_rawMonomials h hs _).2 ⟨e, he, hcg, rfl⟩
  obtain ⟨c, w, hc, hw, _, hid⟩ := columnOf_spec hG (fun v hv => by
    obtain ⟨e, _, _, rfl⟩ := (mem_rawMonomials h hs v).1 hv
    exact boolKey_length n e) (nodup_rawMonomials h) hraw
  refine ⟨c, hc, ?_⟩
  unfold columnValue
  rw [List.getD_eq_getElem?_getD, hw]
  exact (hid.eq hi (boolKey_length n e)).symm

/-- **C28, equalities.** Generating the equalities never fails, and each of them is satisfied by every behaviour that is
invariant under the symmetries. -/
theorem C28_equalities_hold {K : Type} [Ring K] (gs : Groups) (h : BlocksOk n (blocksOf gs)) (hs : ∀ a b, adj a b = adj b a)
    (symReq : Bool) (syms : List (List Nat)) (hG : symReq = true → IsGroup n syms) (p : List Bool → K)
    (hp : Marginalises n (blocksOf gs) adj p) (hi : symReq = true → Invariant n syms p) :
    ∃ rows, equalities n gs adj symReq syms = some rows ∧
      ∀ row ∈ rows, rowValue (columnValue n gs adj symReq syms p) row = 0 := by
  obtain ⟨rows, hrows, hf⟩ := mapM_some_forall₂
    (f := fun bv => (terms n (flagged n gs true) bv).bind fun ts => toRow (columnOf symReq syms (rawMonomials n gs adj)) (ts ++ [(true, bv)]))
    (Q := fun _ row => rowValue (columnValue n gs adj symReq syms p) row = 0)
    (l := (representatives symReq syms (rawMonomials n gs adj)).filter fun bv => (critical n (flagged n gs true) bv).any id) (by
      intro bv hbv
      rw [List.mem_filter] at hbv
      obtain ⟨e, he, hcg, rfl⟩ := (mem_rawMonomials h hs _).1 (representatives_mem hbv.1)
      have hsub := flagBlocks_sublist gs true
      have hcr := hbv.2
      rw [flagged_eq, critical_any h hsub] at hcr
      rw [flagged_eq]
      obtain ⟨h1, h2⟩ := terms_value h hs hp hsub he hcr
      rw [h1]
      obtain ⟨row, hr, hv⟩ := toRow_value (col := columnOf symReq syms (rawMonomials n gs adj))
        (x := columnValue n gs adj symReq syms p) (p := p)
        (ts := ((combos (critBlocks (flagBlocks gs true) e)).map fun x => (x.1, boolKey n (absent (flagBlocks gs true) e ++ x.2))) ++
          [(true, boolKey n e)]) (by
          intro t ht
          rcases List.mem_append.1 ht with ht | ht
          · obtain ⟨x, hx, rfl⟩ := List.mem_map.1 ht
            obtain ⟨h3, h4⟩ := combos_event h hs hsub he hx
            exact column_of_raw h hs hG hi h3 (cg_of_nonadjusting h hcg h4)
          · rw [List.mem_singleton.1 ht]
            exact column_of_raw h hs hG hi he hcg)
      refine ⟨row, by simpa using hr, ?_⟩
      rw [hv, List.map_append, List.sum_append, h2]
      simp [sg])
  refine ⟨rows, hrows, ?_⟩
  intro row hrow
  obtain ⟨_, _, h1⟩ := forall₂_right hf hrow
  exact h1

/-- **C28, inequalities.** Generating the inequalities never fails; in a behaviour each of them evaluates to the probability
of one joint outcome of a maximal set of compatible measurements, and every such probability is the value of one of them. -/
theorem C28_inequalities_are_probabilities {K : Type} [Ring K] (gs : Groups) (hne : gs ≠ []) (h : BlocksOk n (blocksOf gs))
    (hs : ∀ a b, adj a b = adj b a) (symReq : Bool) (syms : List (List Nat)) (hG : symReq = true → IsGroup n syms)
    (p : List Bool → K) (hp : Marginalises n (blocksOf gs) adj p) (hi : symReq = true → Invariant n syms p) :
    ∃ rows, inequalities n gs adj symReq syms = some rows ∧
      (∀ row ∈ rows, ∃ e, IsGlobalEvent (blocksOf gs) adj e ∧
        rowValue (columnValue n gs adj symReq syms p) row = p (boolKey n e)) ∧
      (∀ e, IsGlobalEvent (blocksOf gs) adj e → ∃ row ∈ rows,
        rowValue (columnValue n gs adj symReq syms p) row = p (boolKey n e)) := by
  obtain ⟨rows, hrows, hf⟩ := mapM_some_forall₂
    (f := inequalityRow n (flagged n gs false) (columnOf symReq syms (rawMonomials n gs adj)))
    (Q := fun bv row => (∃ e, IsGlobalEvent (blocksOf gs) adj e ∧ bv = boolKey n e) ∧
      rowValue (columnValue n gs adj symReq syms p) row = p bv)
    (l := representatives symReq syms (maximalEvents n gs adj)) (by
      intro bv hbv
      obtain ⟨e, he, rfl⟩ := (mem_maximalEvents hne h hs _).1 (representatives_mem hbv)
      have hsub := flagBlocks_sublist gs false
      unfold inequalityRow
      rw [flagged_eq]
      split
      · rename_i hcr
        rw [critical_any h hsub] at hcr
        obtain ⟨h1, h2⟩ := terms_value h hs hp hsub he.event hcr
        rw [h1]
        obtain ⟨row, hr, hv⟩ := toRow_value (col := columnOf symReq syms (rawMonomials n gs adj))
          (x := columnValue n gs adj symReq syms p) (p := p)
          (ts := (combos (critBlocks (flagBlocks gs false) e)).map fun x => (x.1, boolKey n (absent (flagBlocks gs false) e ++ x.2))) (by
            intro t ht
            obtain ⟨x, hx, rfl⟩ := List.mem_map.1 ht
            obtain ⟨h3, h4⟩ := combos_event h hs hsub he.event hx
            exact column_of_raw h hs hG hi h3 (cg_of_absent h h4))
        exact ⟨row, by simpa using hr, ⟨e, he, rfl⟩, by rw [hv, h2]⟩
      · rename_i hcr
        rw [critical_any h hsub, not_not] at hcr
        have hcg : CG gs e := by
          intro b hb hmem
          have : b ∈ critBlocks (flagBlocks gs false) e := List.mem_filter.2 ⟨hb, by simpa using hmem⟩
          rw [hcr] at this
          simp at this
        obtain ⟨row, hr, hv⟩ := toRow_value (col := columnOf symReq syms (rawMonomials n gs adj))
          (x := columnValue n gs adj symReq syms p) (p := p) (ts := [(false, boolKey n e)]) (by
            intro t ht
            rw [List.mem_singleton.1 ht]
            exact column_of_raw h hs hG hi he.event hcg)
        exact ⟨row, hr, ⟨e, he, rfl⟩, by rw [hv]; simp [sg]⟩)
  refine ⟨rows, hrows, ?_, ?_⟩
  · intro row hrow
    obtain ⟨_, _, ⟨e, he, rfl⟩, hv⟩ := forall₂_right hf hrow
    exact ⟨e, he, hv⟩
  · intro e he
    have hmax := (mem_maximalEvents hne h hs _).2 ⟨e, he, rfl⟩
    obtain ⟨c, w, _, hw, _, hid⟩ := columnOf_spec hG (fun v hv => by
      obtain ⟨e, _, rfl⟩ := (mem_maximalEvents hne h hs v).1 hv
      exact boolKey_length n e) (nodup_maximalEvents hne h hs) hmax
    have hlen := hf.length_eq
    obtain ⟨hc, hcw⟩ := List.getElem?_eq_some_iff.1 hw
    have hrc : c < rows.length := by rw [← hlen]; exact hc
    refine ⟨rows[c], List.getElem_mem hrc, ?_⟩
    have := (hf.get hc hrc).2
    simp only [List.get_eq_getElem] at this
    rw [this, hcw]
    exact (hid.eq hi (boolKey_length n e)).symm

/-- **C28, positivity.** Every generated inequality is satisfied by every non-negative behaviour. -/
theorem C28_inequalities_hold {K : Type} [Ring K] [PartialOrder K] (gs : Groups) (hne : gs ≠ []) (h : BlocksOk n (blocksOf gs))
    (hs : ∀ a b, adj a b = adj b a) (symReq : Bool) (syms : List (List Nat)) (hG : symReq = true → IsGroup n syms)
    (p : List Bool → K) (hp : Marginalises n (blocksOf gs) adj p) (hi : symReq = true → Invariant n syms p)
    (hpos : Nonneg n (blocksOf gs) adj p) :
    ∃ rows, inequalities n gs adj symReq syms = some rows ∧
      ∀ row ∈ rows, 0 ≤ rowValue (columnValue n gs adj symReq syms p) row := by
  obtain ⟨rows, h1, h2, _⟩ := C28_inequalities_are_probabilities gs hne h hs symReq syms hG p hp hi
  refine ⟨rows, h1, ?_⟩
  intro row hrow
  obtain ⟨e, he, hv⟩ := h2 row hrow
  rw [hv]
  exact hpos e he.event

end Verif.CollinsGisin

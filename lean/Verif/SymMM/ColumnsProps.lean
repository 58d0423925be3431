import Verif.SymMM.ColumnsLemmas
import Verif.Orbits.Props
/-
C19 end to end: for every problem and every list of generating columns, which entries of the symmetrized moment matrix are
identified.
-/
namespace Verif.SymMM
open Verif.Common Verif.Canon Verif.Canon.Spec Verif.MomentMatrix Verif.Orbits Verif.Scenario Verif.Symmetry

variable {N : Nat} {nc om : BMat} {meas : Nat → Nat} {commuting : Bool} {cols rows : List (List Nat)}

theorem padRow_isGroup (S : Scenario) : IsGroup (S.lexorder.length + 1) (sdpSymmetries S) := by
  have hg := symmetries_isGroup S
  have hlen : ∀ r ∈ lexorderSymmetries S, r.length = S.lexorder.length := fun r hr => hg.row_length hr
  have hcomp : ∀ r t : List Nat, t ∈ lexorderSymmetries S → r ∈ lexorderSymmetries S →
      ((padRow t).map fun k => (padRow r).getD k 0) = padRow (t.map fun k => r.getD k 0) := by
    intro r t ht hr
    simp only [padRow, List.map_cons, List.getD_cons_zero, List.map_map, List.cons.injEq, true_and]
    apply List.map_congr_left
    intro k hk
    have hk' : k < r.length := by rw [hlen r hr]; exact hg.row_lt ht hk
    simp [List.getD_eq_getElem?_getD, List.getElem?_eq_getElem hk']
  have hpr : padRow (List.range S.lexorder.length) = List.range (S.lexorder.length + 1) := by
    rw [padRow, List.range_succ_eq_map]
  refine ⟨?_, ?_, ?_, ?_⟩
  · have := hg.ident
    simp only [sdpSymmetries, List.head?_map, this, Option.map_some, hpr]
  · intro r hr
    simp only [sdpSymmetries, List.mem_map] at hr
    obtain ⟨q, hq, rfl⟩ := hr
    rw [← hpr]
    exact ((hg.perm q hq).map _).cons 0
  · intro r hr t ht
    simp only [sdpSymmetries, List.mem_map] at hr ht
    obtain ⟨r, hr, rfl⟩ := hr
    obtain ⟨t, ht, rfl⟩ := ht
    rw [hcomp r t ht hr]
    exact List.mem_map.2 ⟨_, hg.comp r hr t ht, rfl⟩
  · intro r hr
    simp only [sdpSymmetries, List.mem_map] at hr
    obtain ⟨r, hr, rfl⟩ := hr
    obtain ⟨u, hu, e⟩ := hg.inv r hr
    refine ⟨padRow u, List.mem_map.2 ⟨u, hu, rfl⟩, ?_⟩
    rw [hcomp u r hr hu, e, hpr]

theorem scenario_symData (S : Scenario) (D : DagInput) (q : Bool) :
    SymData (S.lexorder.length + 1) (padMat (S.notcomm D.tbl q)) S.orthomat (sdpSymmetries S) where
  group := padRow_isGroup S
  zero := by
    intro r hr
    simp only [sdpSymmetries, List.mem_map] at hr
    obtain ⟨r, hr, rfl⟩ := hr
    rfl
  comm := fun r hr a b => C15_symmetry_preserves_commutation S D q r hr a b
  ortho := fun r hr a b => C15_symmetry_preserves_orthogonality S r hr a b

/-- Equality of entries, zero or not. -/
theorem entries_iff (H : OperatorList N nc om meas) (hc : ColsOk N nc om commuting cols) {i j k l : Nat} {m1 m2 m3 m4 : List Nat}
    (h1 : cols[i]? = some m1) (h2 : cols[j]? = some m2) (h3 : cols[k]? = some m3) (h4 : cols[l]? = some m4) :
    (momentMatrix nc om commuting cols).mat i j = (momentMatrix nc om commuting cols).mat k l ↔
      Eqv N nc om (m1.reverse ++ m2) (m3.reverse ++ m4) ∨ Eqv N nc om (m1.reverse ++ m2) (m4.reverse ++ m3) := by
  by_cases hz : (momentMatrix nc om commuting cols).mat i j = 0
  · have z12 := (C18_zero_entries H commuting hc.comm cols hc.lt i j m1 m2 h1 h2).1 hz
    rw [hz, eq_comm, C18_zero_entries H commuting hc.comm cols hc.lt k l m3 m4 h3 h4]
    constructor
    · intro h; exact .inl (z12.trans h.symm)
    · rintro (h | h)
      · exact h.symm.trans z12
      · have := opEq_reverse H (h.symm.trans z12)
        simpa using this
  · exact C18_entries_equal_iff H commuting hc.comm cols hc.lt i j k l m1 m2 m3 m4 h1 h2 h3 h4 hz

/-- **C19, end to end.** For every problem and every list of distinct generating monomials in canonical order, the symmetrized moment matrix is
computed without failure, and its entries at `(i, j)` and `(k, l)` are the same variable iff some relabelling of the copies of the sources which
maps the generating monomials to generating monomials sends the moment at `(i, j)` to the one at `(k, l)` or to its adjoint. -/
theorem C19_every_problem (S : Scenario) (D : DagInput) (q : Bool) (commuting : Bool) (cols : List (List Nat))
    (hc : ColsOk (S.lexorder.length + 1) (padMat (S.notcomm D.tbl q)) S.orthomat commuting cols) :
    ∃ sym orbits repr, relaxationMatrix (padMat (S.notcomm D.tbl q)) S.orthomat commuting cols (sdpSymmetries S) =
        some (sym, orbits, repr) ∧
      ∀ (i j k l : Nat) (m1 m2 m3 m4 : List Nat), cols[i]? = some m1 → cols[j]? = some m2 → cols[k]? = some m3 →
        cols[l]? = some m4 →
        (sym[i * cols.length + j]? = sym[k * cols.length + l]? ↔
          ∃ r ∈ sdpSymmetries S,
            (∀ m ∈ cols, ∃ m' ∈ cols,
              CommEq (fun a b => padMat (S.notcomm D.tbl q) a b = false) (m.map (img r)) m') ∧
            (OpEq (S.lexorder.length + 1) (fun a b => padMat (S.notcomm D.tbl q) a b = false) (fun a b => S.orthomat a b = true)
                ((m1.reverse ++ m2).map (img r)) (m3.reverse ++ m4) ∨
             OpEq (S.lexorder.length + 1) (fun a b => padMat (S.notcomm D.tbl q) a b = false) (fun a b => S.orthomat a b = true)
                ((m1.reverse ++ m2).map (img r)) (m4.reverse ++ m3))) := by
  have H := scenario_operatorList S D.tbl q
  have h := scenario_symData S D q
  have hcon := consistent H h hc
  obtain ⟨sym, orbits, repr, e, _, hiff, _⟩ := C19_symmetrization hcon
  refine ⟨sym, orbits, repr, e, ?_⟩
  intro i j k l m1 m2 m3 m4 h1 h2 h3 h4
  have hi := (List.getElem?_eq_some_iff.1 h1).1
  have hj := (List.getElem?_eq_some_iff.1 h2).1
  have hk := (List.getElem?_eq_some_iff.1 h3).1
  have hl := (List.getElem?_eq_some_iff.1 h4).1
  have hpos : 0 < cols.length := by omega
  have cell_lt : ∀ a b, a < cols.length → b < cols.length → a * cols.length + b < cols.length * cols.length := by
    intro a b ha hb
    calc a * cols.length + b < a * cols.length + cols.length := by omega
      _ = (a + 1) * cols.length := by rw [Nat.add_mul, Nat.one_mul]
      _ ≤ cols.length * cols.length := Nat.mul_le_mul_right _ ha
  have cell_div : ∀ a b, b < cols.length → (a * cols.length + b) / cols.length = a ∧ (a * cols.length + b) % cols.length = b := by
    intro a b hb
    constructor
    · rw [Nat.mul_comm, Nat.mul_add_div hpos, Nat.div_eq_of_lt hb, Nat.add_zero]
    · rw [Nat.mul_comm, Nat.mul_add_mod, Nat.mod_eq_of_lt hb]
  rw [hiff _ _ (cell_lt i j hi hj) (cell_lt k l hk hl)]
  unfold Related
  have hm := (columnsSymmetries_spec H h hc).1
  have hg := columns_group H h hc
  -- the statement for one row
  have one : ∀ r ∈ sdpSymmetries S, ∀ p, IsColPerm (padMat (S.notcomm D.tbl q)) cols r p →
      p ∈ List.range cols.length :: columnsSymmetries (padMat (S.notcomm D.tbl q)) S.orthomat commuting cols (sdpSymmetries S) →
      ((ravel cols.length (momentMatrix (padMat (S.notcomm D.tbl q)) S.orthomat commuting cols).mat)[permCell cols.length p
          (i * cols.length + j)]? =
        (ravel cols.length (momentMatrix (padMat (S.notcomm D.tbl q)) S.orthomat commuting cols).mat)[k * cols.length + l]? ↔
      (Eqv (S.lexorder.length + 1) (padMat (S.notcomm D.tbl q)) S.orthomat (mapW r (m1.reverse ++ m2)) (m3.reverse ++ m4) ∨
       Eqv (S.lexorder.length + 1) (padMat (S.notcomm D.tbl q)) S.orthomat (mapW r (m1.reverse ++ m2)) (m4.reverse ++ m3))) := by
    intro r hr p hp hpG
    obtain ⟨a, n1, ha, hn1, d1⟩ := hp.2 i m1 h1
    obtain ⟨b, n2, hb, hn2, d2⟩ := hp.2 j m2 h2
    have hpc : permCell cols.length p (i * cols.length + j) = a * cols.length + b := by
      unfold permCell
      rw [(cell_div i j hj).1, (cell_div i j hj).2]
      simp [List.getD_eq_getElem?_getD, ha, hb]
    have hal := (List.getElem?_eq_some_iff.1 hn1).1
    have hbl := (List.getElem?_eq_some_iff.1 hn2).1
    rw [hpc, ravel_get (cell_lt a b hal hbl), ravel_get (cell_lt k l hk hl), (cell_div a b hbl).1, (cell_div a b hbl).2,
      (cell_div k l hl).1, (cell_div k l hl).2]
    simp only [Option.some.injEq]
    rw [entries_iff H hc hn1 hn2 h3 h4]
    have hprod : Eqv (S.lexorder.length + 1) (padMat (S.notcomm D.tbl q)) S.orthomat (mapW r (m1.reverse ++ m2)) (n1.reverse ++ n2) := by
      have : mapW r (m1.reverse ++ m2) = (mapW r m1).reverse ++ mapW r m2 := by simp [mapW]
      rw [this]
      exact OpEq.of_commEq (((commEq_reverse H.nc_symm d1).append_right _).trans (d2.append_left _))
    constructor
    · rintro (q1 | q1)
      · exact .inl (hprod.trans q1)
      · exact .inr (hprod.trans q1)
    · rintro (q1 | q1)
      · exact .inl (hprod.symm.trans q1)
      · exact .inr (hprod.symm.trans q1)
  constructor
  · rintro ⟨p, hpG, e2⟩
    obtain ⟨r, hr, hp⟩ := (hm p).1 hpG
    refine ⟨r, hr, ?_, (one r hr p hp hpG).1 e2⟩
    intro m hmm
    obtain ⟨x, hx, rfl⟩ := List.getElem_of_mem hmm
    obtain ⟨a, m', ha, hm', e3⟩ := hp.2 x _ (List.getElem?_eq_getElem hx)
    exact ⟨m', List.mem_of_getElem? hm', e3⟩
  · rintro ⟨r, hr, hst, e2⟩
    have hex : ∃ p, columnPerm (padMat (S.notcomm D.tbl q)) S.orthomat commuting cols r = some p := by
      unfold columnPerm
      apply mapM_exists
      intro m hmm
      obtain ⟨m', hm', e3⟩ := hst m hmm
      obtain ⟨x, hx⟩ := List.getElem?_of_mem hm'
      refine ⟨x, ?_⟩
      rw [idxOf?_some_iff hc.nodup, hx]
      exact congrArg some ((canon_iff H hc hm').2 e3).symm
    obtain ⟨p, hp⟩ := hex
    have hp' := (columnPerm_iff H hc).1 hp
    have hpG := (hm p).2 ⟨r, hr, hp'⟩
    exact ⟨p, hpG, (one r hr p hp' hpG).2 e2⟩

/-- The columns `1`, `A^1`, `A^2` of the two-source example scenario meet the hypotheses. -/
example (D : DagInput) : ColsOk (exScenario.lexorder.length + 1) (padMat (exScenario.notcomm D.tbl true)) exScenario.orthomat false
    [[], [1], [2]] := by
  refine ⟨by decide, by decide, ?_, by simp⟩
  intro m hm
  simp only [List.mem_cons, List.not_mem_nil, or_false] at hm
  rcases hm with rfl | rfl | rfl <;> simp [toCanonical]

end Verif.SymMM

import Verif.MomentMatrix.Lemmas
/-
C18: the moment matrix. `OpEq` (Canon/Spec.lean) is equality of operator words modulo commutation, idempotence and orthogonality.
The moment of row `m1` and column `m2` is that of `m1† m2`, the word `m1.reverse ++ m2`; its adjoint is `m2.reverse ++ m1`.
-/
namespace Verif.MomentMatrix
open Verif.Canon Verif.Canon.Spec

variable {N : Nat} {nc om : BMat} {meas : Nat → Nat}

theorem cell {commuting : Bool} {cols : List (List Nat)} {i j : Nat} {m1 m2 : List Nat} (h1 : cols[i]? = some m1)
    (h2 : cols[j]? = some m2) (hij : i ≤ j) :
    match monHash nc om commuting m1 m2 with
    | none => (momentMatrix nc om commuting cols).mat i j = 0
    | some h => (momentMatrix nc om commuting cols).tbl.lookup h = some ((momentMatrix nc om commuting cols).mat i j) := by
  have hj : j < cols.length := (List.getElem?_eq_some_iff.1 h2).1
  have := (inv_momentMatrix nc om commuting cols).ent (i, j) (mem_pairs.2 ⟨hij, hj⟩)
  simp only [List.getD_eq_getElem?_getD, h1, h2, Option.getD_some] at this
  exact this

/-- Both orders of a product have the same key. -/
theorem monHash_swap (H : OperatorList N nc om meas) {commuting : Bool} (hcomm : commuting = true → ∀ a b, nc a b = false)
    {m1 m2 : List Nat} (h1 : ∀ x ∈ m1, x < N) (h2 : ∀ x ∈ m2, x < N) :
    monHash nc om commuting m1 m2 = monHash nc om commuting m2 m1 := by
  have hu : ∀ x ∈ m1.reverse ++ m2, x < N := by
    intro x hx; rcases List.mem_append.1 hx with hx | hx
    · exact h1 x (List.mem_reverse.1 hx)
    · exact h2 x hx
  have hu' : ∀ x ∈ m2.reverse ++ m1, x < N := by
    intro x hx; rcases List.mem_append.1 hx with hx | hx
    · exact h2 x (List.mem_reverse.1 hx)
    · exact h1 x hx
  have e1 : (m1.reverse ++ m2).reverse = m2.reverse ++ m1 := by simp
  have e2 : (m2.reverse ++ m1).reverse = m1.reverse ++ m2 := by simp
  have hz : toCanonical nc om false false (m1.reverse ++ m2) = [0] ↔ toCanonical nc om false false (m2.reverse ++ m1) = [0] := by
    rw [C03_canonical_detects_zero H _ hu, C03_canonical_detects_zero H _ hu']
    constructor
    · intro h; have := opEq_reverse H h; rwa [e1] at this
    · intro h; have := opEq_reverse H h; rwa [e2] at this
  rcases monHash_spec H hcomm h1 h2 with ⟨a1, a2⟩ | ⟨a1, a2⟩ <;>
    rcases monHash_spec H hcomm h2 h1 with ⟨b1, b2⟩ | ⟨b1, b2⟩
  · rw [a1, b1]
  · exact absurd (by rw [hz.1 a2]; simp) b1
  · exact absurd (by rw [hz.2 b2]; simp) a1
  · rw [a2, b2, e1, e2, lexMin_comm]

theorem cell_any (H : OperatorList N nc om meas) {commuting : Bool} (hcomm : commuting = true → ∀ a b, nc a b = false)
    {cols : List (List Nat)} (hcols : ∀ m ∈ cols, ∀ x ∈ m, x < N) {i j : Nat} {m1 m2 : List Nat}
    (h1 : cols[i]? = some m1) (h2 : cols[j]? = some m2) :
    match monHash nc om commuting m1 m2 with
    | none => (momentMatrix nc om commuting cols).mat i j = 0
    | some h => (momentMatrix nc om commuting cols).tbl.lookup h = some ((momentMatrix nc om commuting cols).mat i j) := by
  rcases Nat.le_total i j with h | h
  · exact cell h1 h2 h
  · have := cell (nc := nc) (om := om) (commuting := commuting) h2 h1 h
    rw [(inv_momentMatrix nc om commuting cols).mat j i,
      monHash_swap H hcomm (hcols _ (List.mem_of_getElem? h2)) (hcols _ (List.mem_of_getElem? h1))] at this
    exact this

/-- **C18, symmetry.** The matrix is symmetric. -/
theorem C18_symmetric (nc om : BMat) (commuting : Bool) (cols : List (List Nat)) (i j : Nat) :
    (momentMatrix nc om commuting cols).mat i j = (momentMatrix nc om commuting cols).mat j i :=
  (inv_momentMatrix nc om commuting cols).mat i j

/-- **C18, zeros.** An entry is 0 iff the product of its row and column is the zero operator. -/
theorem C18_zero_entries (H : OperatorList N nc om meas) (commuting : Bool) (hcomm : commuting = true → ∀ a b, nc a b = false)
    (cols : List (List Nat)) (hcols : ∀ m ∈ cols, ∀ x ∈ m, x < N) (i j : Nat) (m1 m2 : List Nat)
    (h1 : cols[i]? = some m1) (h2 : cols[j]? = some m2) :
    (momentMatrix nc om commuting cols).mat i j = 0 ↔
      OpEq N (fun a b => nc a b = false) (fun a b => om a b = true) (m1.reverse ++ m2) [0] := by
  have hm1 := hcols _ (List.mem_of_getElem? h1)
  have hm2 := hcols _ (List.mem_of_getElem? h2)
  have hu : ∀ x ∈ m1.reverse ++ m2, x < N := by
    intro x hx; rcases List.mem_append.1 hx with hx | hx
    · exact hm1 x (List.mem_reverse.1 hx)
    · exact hm2 x hx
  rw [← C03_canonical_detects_zero H _ hu]
  have hc := cell_any H hcomm hcols h1 h2
  rcases monHash_spec H hcomm hm1 hm2 with ⟨a1, a2⟩ | ⟨a1, a2⟩
  · rw [a1] at hc
    exact ⟨fun _ => a2, fun _ => hc⟩
  · rw [a2] at hc
    have := (inv_momentMatrix nc om commuting cols).vals _ _ hc
    constructor
    · intro h; omega
    · intro h; rw [h] at a1; simp at a1

/-- **C18, identification.** Two non-zero entries are equal iff the products are equal as operators, or one equals the adjoint of the
other. -/
theorem C18_entries_equal_iff (H : OperatorList N nc om meas) (commuting : Bool)
    (hcomm : commuting = true → ∀ a b, nc a b = false)
    (cols : List (List Nat)) (hcols : ∀ m ∈ cols, ∀ x ∈ m, x < N) (i j k l : Nat) (m1 m2 m3 m4 : List Nat)
    (h1 : cols[i]? = some m1) (h2 : cols[j]? = some m2) (h3 : cols[k]? = some m3) (h4 : cols[l]? = some m4)
    (hnz : (momentMatrix nc om commuting cols).mat i j ≠ 0) :
    (momentMatrix nc om commuting cols).mat i j = (momentMatrix nc om commuting cols).mat k l ↔
      OpEq N (fun a b => nc a b = false) (fun a b => om a b = true) (m1.reverse ++ m2) (m3.reverse ++ m4) ∨
      OpEq N (fun a b => nc a b = false) (fun a b => om a b = true) (m1.reverse ++ m2) (m4.reverse ++ m3) := by
  have hm1 := hcols _ (List.mem_of_getElem? h1)
  have hm2 := hcols _ (List.mem_of_getElem? h2)
  have hm3 := hcols _ (List.mem_of_getElem? h3)
  have hm4 := hcols _ (List.mem_of_getElem? h4)
  have hlt : ∀ (a b : List Nat), (∀ x ∈ a, x < N) → (∀ x ∈ b, x < N) → ∀ x ∈ a.reverse ++ b, x < N := by
    intro a b ha hb x hx; rcases List.mem_append.1 hx with hx | hx
    · exact ha x (List.mem_reverse.1 hx)
    · exact hb x hx
  have hz := C18_zero_entries H commuting hcomm cols hcols i j m1 m2 h1 h2
  have hz' := C18_zero_entries H commuting hcomm cols hcols k l m3 m4 h3 h4
  have hc := cell_any H hcomm hcols h1 h2
  have hc' := cell_any H hcomm hcols h3 h4
  have inv := inv_momentMatrix nc om commuting cols
  have er : ∀ a b : List Nat, (a.reverse ++ b).reverse = b.reverse ++ a := by intro a b; simp
  rcases monHash_spec H hcomm hm1 hm2 with ⟨a1, a2⟩ | ⟨a1, a2⟩
  · rw [a1] at hc; exact absurd hc hnz
  rw [a2] at hc
  rcases monHash_spec H hcomm hm3 hm4 with ⟨b1, b2⟩ | ⟨b1, b2⟩
  · rw [b1] at hc'
    simp only at hc'
    rw [hc']
    refine ⟨fun h => absurd h hnz, ?_⟩
    have hkl := hz'.1 hc'
    rintro (h | h)
    · exact absurd (hz.2 (h.trans hkl)) hnz
    · refine absurd (hz.2 (h.trans ?_)) hnz
      have := opEq_reverse H hkl
      rwa [er] at this
  · rw [b2] at hc'
    simp only at hc hc'
    rw [er] at hc hc'
    have hiff : (momentMatrix nc om commuting cols).mat i j = (momentMatrix nc om commuting cols).mat k l ↔
        lexMin (toCanonical nc om false false (m1.reverse ++ m2)) (toCanonical nc om false false (m2.reverse ++ m1)) =
        lexMin (toCanonical nc om false false (m3.reverse ++ m4)) (toCanonical nc om false false (m4.reverse ++ m3)) := by
      constructor
      · intro h
        rw [← h] at hc'
        exact inv.inj _ _ _ hc hc'
      · intro h
        rw [h, hc'] at hc
        simpa using hc.symm
    rw [hiff]
    have c12 := hlt m1 m2 hm1 hm2
    have c21 := hlt m2 m1 hm2 hm1
    have c34 := hlt m3 m4 hm3 hm4
    have c43 := hlt m4 m3 hm4 hm3
    constructor
    · intro h
      rcases lexMin_cases (toCanonical nc om false false (m1.reverse ++ m2)) (toCanonical nc om false false (m2.reverse ++ m1))
        with e | e <;> rcases lexMin_cases (toCanonical nc om false false (m3.reverse ++ m4))
          (toCanonical nc om false false (m4.reverse ++ m3)) with e' | e' <;> rw [e, e'] at h
      · exact .inl ((toCanonical_iff H c12 c34).1 h)
      · exact .inr ((toCanonical_iff H c12 c43).1 h)
      · right
        have := opEq_reverse H ((toCanonical_iff H c21 c34).1 h)
        rwa [er, er] at this
      · left
        have := opEq_reverse H ((toCanonical_iff H c21 c43).1 h)
        rwa [er, er] at this
    · rintro (h | h)
      · have h' := opEq_reverse H h
        rw [er, er] at h'
        rw [(toCanonical_iff H c12 c34).2 h, (toCanonical_iff H c21 c43).2 h']
      · have h' := opEq_reverse H h
        rw [er, er] at h'
        rw [(toCanonical_iff H c12 c43).2 h, (toCanonical_iff H c21 c34).2 h', lexMin_comm]

/-- **C18, index table.** The non-zero entries are exactly the numbers `1..n` where `n` is the size of the table. -/
theorem C18_entries_consecutive (nc om : BMat) (commuting : Bool) (cols : List (List Nat)) (v : Nat) (hv : v ≠ 0) :
    (∃ i j, i < cols.length ∧ j < cols.length ∧ (momentMatrix nc om commuting cols).mat i j = v) ↔
      v ≤ (momentMatrix nc om commuting cols).tbl.length := by
  have inv := inv_momentMatrix nc om commuting cols
  have hcnt := inv.count
  constructor
  · rintro ⟨i, j, hi, hj, e⟩
    have key : ∀ i j, (i, j) ∈ pairs cols.length → (momentMatrix nc om commuting cols).mat i j = v →
        v ≤ (momentMatrix nc om commuting cols).tbl.length := by
      intro i j hp e
      have := inv.ent _ hp
      simp only at this
      split at this
      · omega
      · have := inv.vals _ _ this
        omega
    rcases Nat.le_total i j with h | h
    · exact key i j (mem_pairs.2 ⟨h, hj⟩) e
    · exact key j i (mem_pairs.2 ⟨h, hi⟩) (by rw [inv.mat]; exact e)
  · intro hle
    obtain ⟨⟨i, j⟩, hp, e⟩ := inv.surj v (by omega) (by omega)
    have := mem_pairs.1 hp
    exact ⟨i, j, by omega, by omega, e⟩

/-- **C18, index table.** Every non-zero entry `v` is stored in the
table under a word which equals, as an operator, the product of row and column or its adjoint. -/
theorem C18_index_table (H : OperatorList N nc om meas) (commuting : Bool)
    (hcomm : commuting = true → ∀ a b, nc a b = false)
    (cols : List (List Nat)) (hcols : ∀ m ∈ cols, ∀ x ∈ m, x < N) (i j : Nat) (m1 m2 : List Nat)
    (h1 : cols[i]? = some m1) (h2 : cols[j]? = some m2) (hnz : (momentMatrix nc om commuting cols).mat i j ≠ 0) :
    (momentMatrix nc om commuting cols).mat i j ≤ (momentMatrix nc om commuting cols).tbl.length ∧
    ∃ w, (momentMatrix nc om commuting cols).tbl.lookup w = some ((momentMatrix nc om commuting cols).mat i j) ∧
      (OpEq N (fun a b => nc a b = false) (fun a b => om a b = true) w (m1.reverse ++ m2) ∨
       OpEq N (fun a b => nc a b = false) (fun a b => om a b = true) w (m2.reverse ++ m1)) := by
  have hm1 := hcols _ (List.mem_of_getElem? h1)
  have hm2 := hcols _ (List.mem_of_getElem? h2)
  have hlt : ∀ (a b : List Nat), (∀ x ∈ a, x < N) → (∀ x ∈ b, x < N) → ∀ x ∈ a.reverse ++ b, x < N := by
    intro a b ha hb x hx; rcases List.mem_append.1 hx with hx | hx
    · exact ha x (List.mem_reverse.1 hx)
    · exact hb x hx
  have hc := cell_any H hcomm hcols h1 h2
  have inv := inv_momentMatrix nc om commuting cols
  rcases monHash_spec H hcomm hm1 hm2 with ⟨a1, a2⟩ | ⟨a1, a2⟩
  · rw [a1] at hc; exact absurd hc hnz
  rw [a2] at hc
  simp only at hc
  have er : (m1.reverse ++ m2).reverse = m2.reverse ++ m1 := by simp
  rw [er] at hc
  have hv := inv.vals _ _ hc
  have hcnt := inv.count
  refine ⟨by omega, _, hc, ?_⟩
  have c12 := hlt m1 m2 hm1 hm2
  have c21 := hlt m2 m1 hm2 hm1
  rcases lexMin_cases (toCanonical nc om false false (m1.reverse ++ m2)) (toCanonical nc om false false (m2.reverse ++ m1))
    with e | e <;> rw [e]
  · left
    exact (toCanonical_iff H (toCanonical_lt H c12) c12).1 (C04_canonical_idempotent nc om H.nc_symm H.nc_diag false _)
  · right
    exact (toCanonical_iff H (toCanonical_lt H c21) c21).1 (C04_canonical_idempotent nc om H.nc_symm H.nc_diag false _)

/-- Two measurements `{1}`, `{2}` of one party which do not commute: the columns `1, A, B` and `A B`. -/
example : OperatorList 3 (fun a b => decide ((a = 1 ∧ b = 2) ∨ (a = 2 ∧ b = 1)))
      (fun a b => decide (a = 0 ∨ b = 0)) (fun a => a) ∧
    (∀ m ∈ ([[], [1], [2], [1, 2]] : List (List Nat)), ∀ x ∈ m, x < 3) := by
  refine ⟨⟨by decide, ?_, ?_, ?_, ?_, ?_⟩, by decide⟩
  · intro a b; exact decide_eq_decide.2 (by tauto)
  · intro a; simp; omega
  · intro a b c _ _ _ _ h; subst h; rfl
  · intro a b c _ h1 h2 _ h; omega
  · intro a b _ _; simp

end Verif.MomentMatrix

import Verif.Scenario.Commute
import Verif.Scenario.Lemmas
import Verif.Canon.Spec
/-! Helper lemmas about commutation and orthogonality matrices. -/
namespace Verif.Scenario
open Verif.Canon (BMat)
open Verif.Canon.Spec (OperatorList)

theorem mem_trips {rel c1 c2 : List Nat} {t : Nat × Nat × Nat} :
    t ∈ List.zip rel (List.zip c1 c2) ↔
      ∃ s : Nat, rel[s]? = some t.1 ∧ c1[s]? = some t.2.1 ∧ c2[s]? = some t.2.2 := by
  obtain ⟨r, x, y⟩ := t
  simp only [List.mem_iff_getElem?, List.getElem?_zip_eq_some]

/-- Boolean cases of `operatorsCommute` rewritten as a proposition. -/
theorem operatorsCommute_eq_false (tbl : Nat → Nat → List Nat) (a b : Op) :
    operatorsCommute tbl a b = false ↔
      (∃ s r c : Nat, (tbl (a.party - 1) (b.party - 1))[s]? = some r ∧ 2 ≤ r ∧
        a.copies[s]? = some c ∧ b.copies[s]? = some c) ∧
      ((∃ s r c d : Nat, (tbl (a.party - 1) (b.party - 1))[s]? = some r ∧ 1 ≤ r ∧
        a.copies[s]? = some c ∧ b.copies[s]? = some d ∧ c ≠ d) ∨
       (a.party = b.party ∧ a.setting ≠ b.setting)) := by
  have e1 : (∃ s r c : Nat, (tbl (a.party - 1) (b.party - 1))[s]? = some r ∧ 2 ≤ r ∧
        a.copies[s]? = some c ∧ b.copies[s]? = some c) ↔
      ∃ t ∈ List.zip (tbl (a.party - 1) (b.party - 1)) (List.zip a.copies b.copies),
        2 ≤ t.1 ∧ t.2.1 = t.2.2 := by
    constructor
    · rintro ⟨s, r, c, h1, h2, h3, h4⟩
      exact ⟨(r, c, c), mem_trips.2 ⟨s, h1, h3, h4⟩, h2, rfl⟩
    · rintro ⟨⟨r, c, d⟩, ht, h2, h3⟩
      obtain ⟨s, h1, h4, h5⟩ := mem_trips.1 ht
      simp only at h2 h3 h1 h4 h5
      subst h3
      exact ⟨s, r, c, h1, h2, h4, h5⟩
  have e2 : (∃ s r c d : Nat, (tbl (a.party - 1) (b.party - 1))[s]? = some r ∧ 1 ≤ r ∧
        a.copies[s]? = some c ∧ b.copies[s]? = some d ∧ c ≠ d) ↔
      ∃ t ∈ List.zip (tbl (a.party - 1) (b.party - 1)) (List.zip a.copies b.copies),
        1 ≤ t.1 ∧ t.2.1 ≠ t.2.2 := by
    constructor
    · rintro ⟨s, r, c, d, h1, h2, h3, h4, h5⟩
      exact ⟨(r, c, d), mem_trips.2 ⟨s, h1, h3, h4⟩, h2, h5⟩
    · rintro ⟨⟨r, c, d⟩, ht, h2, h3⟩
      obtain ⟨s, h1, h4, h5⟩ := mem_trips.1 ht
      exact ⟨s, r, c, d, h1, h2, h4, h5, h3⟩
  rw [e1, e2]
  clear e1 e2
  simp only [operatorsCommute]
  generalize List.zip (tbl (a.party - 1) (b.party - 1)) (List.zip a.copies b.copies) = trips
  by_cases q : ∃ t ∈ trips, 2 ≤ t.1 ∧ t.2.1 = t.2.2
  · have h1 : (trips.any fun t => decide (2 ≤ t.1)) = true := by
      obtain ⟨t, ht, h2, _⟩ := q
      simp only [List.any_eq_true, decide_eq_true_eq]; exact ⟨t, ht, h2⟩
    have h2 : ((trips.filter fun t => decide (2 ≤ t.1)).all fun t => t.2.1 != t.2.2) = false := by
      obtain ⟨t, ht, h2, h3⟩ := q
      rw [List.all_eq_false]
      exact ⟨t, by simp [ht, h2], by simp [h3]⟩
    simp only [h1, h2, Bool.not_true, Bool.false_eq_true, if_false, q, true_and]
    by_cases d : ∃ t ∈ trips, 1 ≤ t.1 ∧ t.2.1 ≠ t.2.2
    · have h3 : ((trips.filter fun t => decide (1 ≤ t.1)).all fun t => t.2.1 == t.2.2) = false := by
        obtain ⟨t, ht, h3, h4⟩ := d
        rw [List.all_eq_false]
        exact ⟨t, by simp [ht, h3], by simp [h4]⟩
      simp [h3, d]
    · have h3 : ((trips.filter fun t => decide (1 ≤ t.1)).all fun t => t.2.1 == t.2.2) = true := by
        rw [List.all_eq_true]
        intro t ht
        simp only [List.mem_filter, decide_eq_true_eq] at ht
        simp only [beq_iff_eq]
        exact Classical.byContradiction fun hne => d ⟨t, ht.1, ht.2, hne⟩
      simp only [h3, Bool.not_true, Bool.false_eq_true, if_false, d, false_or]
      by_cases hp : a.party = b.party <;> simp [hp]
  · have : (¬ ((trips.any fun t => decide (2 ≤ t.1)) = true)) ∨
        ((trips.filter fun t => decide (2 ≤ t.1)).all fun t => t.2.1 != t.2.2) = true := by
      right
      rw [List.all_eq_true]
      intro t ht
      simp only [List.mem_filter, decide_eq_true_eq] at ht
      simp only [bne_iff_ne]
      intro he
      exact q ⟨t, ht.1, ht.2, he⟩
    constructor
    · intro h
      exfalso
      rcases this with h1 | h1
      · simp [h1] at h
      · rw [h1] at h; simp at h
    · rintro ⟨h, _⟩; exact absurd h q

theorem operatorsCommute_symm {tbl : Nat → Nat → List Nat} (hs : ∀ p q, tbl p q = tbl q p) (a b : Op) :
    operatorsCommute tbl a b = operatorsCommute tbl b a := by
  have key : ∀ a b, operatorsCommute tbl a b = false → operatorsCommute tbl b a = false := by
    intro a b h
    rw [operatorsCommute_eq_false] at h ⊢
    rw [hs (b.party - 1)]
    obtain ⟨⟨s, r, c, h1, h2, h3, h4⟩, h⟩ := h
    refine ⟨⟨s, r, c, h1, h2, h4, h3⟩, ?_⟩
    rcases h with ⟨s, r, c, d, h1, h2, h3, h4, h5⟩ | ⟨h1, h2⟩
    · exact .inl ⟨s, r, d, c, h1, h2, h4, h3, h5.symm⟩
    · exact .inr ⟨h1.symm, h2.symm⟩
  by_cases h : operatorsCommute tbl a b = false
  · rw [h, key a b h]
  · by_cases h' : operatorsCommute tbl b a = false
    · exact absurd (key b a h') h
    · simp only [Bool.not_eq_false] at h h'; rw [h, h']

theorem operatorsCommute_key {tbl : Nat → Nat → List Nat} {a a' b b' : Op} (ha : a.key = a'.key)
    (hb : b.key = b'.key) : operatorsCommute tbl a b = operatorsCommute tbl a' b' := by
  simp only [Op.key, Prod.mk.injEq] at ha hb
  unfold operatorsCommute
  rw [ha.1, ha.2.1, ha.2.2, hb.1, hb.2.1, hb.2.2]

theorem operatorsCommute_self_key {tbl : Nat → Nat → List Nat} {a b : Op} (h : a.key = b.key) :
    operatorsCommute tbl a b = true := by
  rw [← Bool.not_eq_false]
  rw [operatorsCommute_eq_false]
  simp only [Op.key, Prod.mk.injEq] at h
  rintro ⟨_, ⟨s, r, c, d, _, _, h1, h2, h3⟩ | ⟨_, h1⟩⟩
  · rw [h.2.1, h2] at h1; simp at h1; exact h3 h1.symm
  · exact h1 h.2.2

/-! ### The matrix -/

theorem commutationMatrix_symm (lex : List Op) (tbl : Nat → Nat → List Nat) (c : Bool) (i j : Nat) :
    commutationMatrix lex tbl c i j = commutationMatrix lex tbl c j i := by
  unfold commutationMatrix
  split
  · rfl
  · simp only; rw [Bool.or_comm]

theorem commutationMatrix_diag (lex : List Op) (tbl : Nat → Nat → List Nat) (c : Bool) (i : Nat) :
    commutationMatrix lex tbl c i i = false := by
  unfold commutationMatrix
  split
  · rfl
  · simp only [Nat.lt_irrefl, decide_false, Bool.false_and, Bool.or_self]
    split <;> rfl

theorem commutationMatrix_lt {lex : List Op} {tbl : Nat → Nat → List Nat} {i j : Nat} (hij : i < j)
    (hj : j < lex.length) :
    commutationMatrix lex tbl false i j = !(operatorsCommute tbl lex[i] lex[j]) := by
  unfold commutationMatrix
  have hji : ¬ j < i := by omega
  simp [List.getElem?_eq_getElem hj, List.getElem?_eq_getElem (Nat.lt_trans hij hj), hij, hji]

theorem commutationMatrix_out {lex : List Op} {tbl : Nat → Nat → List Nat} {c : Bool} {i j : Nat}
    (h : lex.length ≤ i ∨ lex.length ≤ j) : commutationMatrix lex tbl c i j = false := by
  unfold commutationMatrix
  split
  · rfl
  · simp only
    rcases h with h | h
    · rw [List.getElem?_eq_none h]
      simp only [Bool.false_or]
      cases lex[j]? <;> rfl
    · rw [List.getElem?_eq_none h]
      cases lex[i]? <;> rfl

variable (S : Scenario)

/-- Measurement index of the ranks of the SDP operator list (rank 0 is the zero operator). -/
def sdpMeas (i : Nat) : Nat := measIdx S (i - 1)

theorem notcomm_meas (tbl : Nat → Nat → List Nat) (q : Bool) {a b : Nat} (c : Nat)
    (ha : a < S.lexorder.length) (hb : b < S.lexorder.length) (h : measIdx S a = measIdx S b) :
    S.notcomm tbl q a c = S.notcomm tbl q b c := by
  unfold Scenario.notcomm
  split
  swap
  · rfl
  · have hk : ∀ x y, x < S.lexorder.length → (hy : y < S.lexorder.length) → measIdx S x = measIdx S y →
        commutationMatrix S.lexorder tbl false x y = false := by
      intro x y hx hy hxy
      rw [measIdx_eq_iff S hx hy] at hxy
      rcases Nat.lt_trichotomy x y with hlt | rfl | hlt
      · rw [commutationMatrix_lt hlt hy, operatorsCommute_self_key hxy]; rfl
      · exact commutationMatrix_diag _ _ _ _
      · rw [commutationMatrix_symm, commutationMatrix_lt hlt hx, operatorsCommute_self_key hxy.symm]; rfl
    by_cases hc : c < S.lexorder.length
    · by_cases hm : measIdx S c = measIdx S a
      · rw [hk a c ha hc hm.symm, hk b c hb hc (h.symm.trans hm.symm)]
      · have hkey := (measIdx_eq_iff S ha hb).1 h
        by_cases h1 : c < a
        · have h2 : c < b := by
            by_cases hh : c < b
            · exact hh
            · exfalso; apply hm
              have := measIdx_mono S (i := b) (j := c) (by omega) hc
              have := measIdx_mono S (i := c) (j := a) (by omega) ha
              omega
          rw [commutationMatrix_symm _ _ _ a, commutationMatrix_symm _ _ _ b, commutationMatrix_lt h1 ha,
            commutationMatrix_lt h2 hb, operatorsCommute_key rfl hkey]
        · have hca : c ≠ a := by rintro rfl; exact hm rfl
          have hcb : c ≠ b := by rintro rfl; exact hm h.symm
          have h2 : b < c := by
            by_cases hh : b < c
            · exact hh
            · exfalso; apply hm
              have := measIdx_mono S (i := a) (j := c) (by omega) hc
              have := measIdx_mono S (i := c) (j := b) (by omega) hb
              omega
          rw [commutationMatrix_lt (by omega : a < c) hc, commutationMatrix_lt h2 hc,
            operatorsCommute_key hkey rfl]
    · rw [commutationMatrix_out (.inr (by omega)), commutationMatrix_out (.inr (by omega))]

theorem notcomm_symm (tbl : Nat → Nat → List Nat) (q : Bool) (a b : Nat) :
    S.notcomm tbl q a b = S.notcomm tbl q b a := by
  unfold Scenario.notcomm
  split
  · exact commutationMatrix_symm _ _ _ _ _
  · rfl

theorem notcomm_diag (tbl : Nat → Nat → List Nat) (q : Bool) (a : Nat) :
    S.notcomm tbl q a a = false := by
  unfold Scenario.notcomm
  split
  · exact commutationMatrix_diag _ _ _ _
  · rfl

theorem sdpLexorder_length : S.sdpLexorder.length = S.lexorder.length + 1 := by
  simp [Scenario.sdpLexorder]

/-- The operator list of every scenario has the structure assumed by the canonical-form theorems. -/
theorem scenario_operatorList (tbl : Nat → Nat → List Nat) (q : Bool) :
    OperatorList (S.lexorder.length + 1) (padMat (S.notcomm tbl q)) S.orthomat (sdpMeas S) where
  pos := by omega
  nc_symm := by
    intro a b
    unfold padMat
    rw [notcomm_symm S tbl q (a - 1), Bool.and_comm (decide (0 < a))]
  nc_diag := by intro a; simp [padMat, notcomm_diag]
  nc_meas := by
    intro a b c ha ha' hb hb' h
    unfold padMat
    rw [notcomm_meas S tbl q (c - 1) (by omega : a - 1 < _) (by omega : b - 1 < _) h]
    simp [ha, hb]
  contiguous := by
    intro a b c ha hab hbc hc h
    have h1 := measIdx_mono S (i := a - 1) (j := b - 1) (by omega) (by omega)
    have h2 := measIdx_mono S (i := b - 1) (j := c - 1) (by omega) (by omega)
    unfold sdpMeas at *
    omega
  ortho_iff := by
    intro a b ha hb
    unfold Scenario.orthomat
    rw [if_pos (by rw [sdpLexorder_length]; exact ⟨ha, hb⟩)]
    by_cases h0 : a = 0 ∨ b = 0
    · rw [if_pos h0]; simp only [true_iff]; rcases h0 with h | h
      · exact .inl h
      · exact .inr (.inl h)
    · rw [if_neg h0]
      have ha0 : a ≠ 0 := fun h => h0 (.inl h)
      have hb0 : b ≠ 0 := fun h => h0 (.inr h)
      obtain ⟨a, rfl⟩ := Nat.exists_eq_succ_of_ne_zero ha0
      obtain ⟨b, rfl⟩ := Nat.exists_eq_succ_of_ne_zero hb0
      have ha' : a < S.lexorder.length := by omega
      have hb' : b < S.lexorder.length := by omega
      simp only [Scenario.sdpLexorder, Nat.succ_eq_add_one, List.getElem?_cons_succ,
        List.getElem?_eq_getElem ha', List.getElem?_eq_getElem hb']
      simp only [Nat.add_eq_zero_iff, Nat.one_ne_zero, and_false, false_or]
      have hmi := measIdx_eq_iff S ha' hb'
      simp only [sdpMeas, Nat.add_sub_cancel, hmi]
      simp only [Bool.and_eq_true, bne_iff_ne, beq_iff_eq, Op.key, Prod.mk.injEq]
      constructor
      · rintro ⟨h1, h2, ⟨h3, h4⟩, h5⟩
        exact ⟨h1, h3, h4, h5⟩
      · rintro ⟨h1, h3, h4, h5⟩
        refine ⟨h1, ?_, ⟨h3, h4⟩, h5⟩
        intro ho
        apply h1
        have hnd := lexorder_nodup S
        have : S.lexorder[a] = S.lexorder[b] := by
          cases hA : S.lexorder[a]; cases hB : S.lexorder[b]
          rw [hA, hB] at h3 h4 h5 ho
          simp_all
        have := (hnd.getElem_inj_iff).1 this
        omega

end Verif.Scenario

import Verif.Columns.LocalSpecs
import Verif.Columns.Spec
import Verif.Scenario.Props
import Verif.SymMM.ColumnsSpec
/-
C42: the generating sets built from party blocks.
`toCanonical (padMat (S.notcomm D.tbl q)) S.orthomat commuting false` is the canonical form of the problem (C01-C05), `measOps S.sdpLexorder card p` the operators of party `p`.
-/
namespace Verif.Columns
open Verif.Scenario Verif.Canon Verif.Canon.Spec Verif.Common Verif.MomentMatrix

variable (S : Scenario) (D : DagInput) (q commuting : Bool) (card : Nat → Nat)

/-- The columns of a list of party blocks for one problem. -/
def problemCols (specs : List (List Nat)) : List (List Nat) :=
  colsFromSpecs (toCanonical (padMat (S.notcomm D.tbl q)) S.orthomat commuting false) (measOps S.sdpLexorder card) specs

theorem mem_measOps {p x : Nat} : x ∈ measOps S.sdpLexorder card p ↔ Allowed S card p x := by
  unfold measOps Allowed
  rw [List.mem_filter, List.mem_range]
  constructor
  · rintro ⟨h1, h2⟩
    rw [List.getElem?_eq_getElem h1] at h2 ⊢
    simp only [Option.any_some, Bool.and_eq_true, beq_iff_eq, bne_iff_ne] at h2
    exact ⟨_, rfl, h2.1, h2.2⟩
  · rintro ⟨o, h, h1, h2⟩
    refine ⟨(List.getElem?_eq_some_iff.1 h).1, ?_⟩
    rw [h]
    simp [h1, h2]

/-- Party (from 0) of a rank. -/
def partyOf (x : Nat) : Nat := (S.sdpLexorder[x]?.map fun o => o.party - 1).getD 0

theorem ops_ok : Ops (S.lexorder.length + 1) (measOps S.sdpLexorder card) (partyOf S) where
  lt := by
    intro p x hx
    obtain ⟨o, h1, h2, _⟩ := (mem_measOps S card).1 hx
    refine ⟨?_, by have := (List.getElem?_eq_some_iff.1 h1).1; rwa [sdpLexorder_length] at this⟩
    rcases x with _ | x
    · simp only [Scenario.sdpLexorder, List.getElem?_cons_zero, Option.some.injEq] at h1
      rw [← h1] at h2
      simp [zeroOp] at h2
    · omega
  party := by
    intro p x hx
    obtain ⟨o, h1, h2, _⟩ := (mem_measOps S card).1 hx
    unfold partyOf
    rw [h1]
    simp [h2]

theorem partyOf_lt {x : Nat} (hx : 0 < x) (hlt : x < S.lexorder.length + 1) : partyOf S x < S.nParties := by
  obtain ⟨y, rfl⟩ : ∃ y, x = y + 1 := ⟨x - 1, by omega⟩
  have hy : y < S.lexorder.length := by omega
  have hv := (mem_lexorder S).1 (List.getElem_mem hy)
  have := hv.party_pos
  have := hv.party_le
  unfold partyOf
  simp [Scenario.sdpLexorder, hy]
  omega

variable {S D q commuting card}

theorem partiesCommute_nc (h : PartiesCommute S D q) (a b : Nat) (ha : 0 < a) (ha' : a < S.lexorder.length + 1) (hb : 0 < b) (hb' : b < S.lexorder.length + 1)
    (hne : partyOf S a ≠ partyOf S b) : padMat (S.notcomm D.tbl q) a b = false := by
  rw [← sdpLexorder_length] at ha' hb'
  refine h a b _ _ (List.getElem?_eq_getElem ha') (List.getElem?_eq_getElem hb') ?_
  intro e
  apply hne
  unfold partyOf
  rw [List.getElem?_eq_getElem ha', List.getElem?_eq_getElem hb']
  simp [e]

section
variable (hcomm : commuting = true → ∀ a b, padMat (S.notcomm D.tbl q) a b = false) {specs : List (List Nat)}
include hcomm

theorem cols_lt {m : List Nat} (hm : m ∈ problemCols S D q commuting card specs) : ∀ x ∈ m, x < S.lexorder.length + 1 := by
  obtain ⟨b, _, hb⟩ := mem_cols.1 hm
  intro x hx
  exact ((ops_ok S card).lt _ x ((fromBlock_sound (scenario_operatorList S D.tbl q) hcomm (ops_ok S card) hb).2.2.2.2 x hx)).2

/-- **C42, canonical.** Every column is in canonical form and is not the zero operator. -/
theorem C42_columns_canonical_nonzero (m : List Nat) (hm : m ∈ problemCols S D q commuting card specs) :
    toCanonical (padMat (S.notcomm D.tbl q)) S.orthomat commuting false m = m ∧ ¬ Same S D q m [0] := by
  obtain ⟨b, _, hb⟩ := mem_cols.1 hm
  have h := fromBlock_sound (scenario_operatorList S D.tbl q) hcomm (ops_ok S card) hb
  refine ⟨h.1, ?_⟩
  have hlt := cols_lt hcomm hm
  intro h0
  have := (C03_canonical_detects_zero (scenario_operatorList S D.tbl q) m hlt).2 h0
  rw [← canon_eq hcomm, h.1] at this
  exact h.2.1 this

/-- **C42, distinct.** If the specification contains the empty block at most once, no two columns are the same operator; in particular no column is repeated. -/
theorem C42_columns_distinct (hs : specs.count [] ≤ 1) :
    (problemCols S D q commuting card specs).Pairwise fun u v => ¬ Same S D q u v := by
  have hn : (problemCols S D q commuting card specs).Nodup := nodup_cols hs
  refine List.Pairwise.imp_of_mem ?_ hn
  intro u v hu hv hne h
  apply hne
  have := (C03_canonical_decides_operator_equality (scenario_operatorList S D.tbl q) u v (cols_lt hcomm hu) (cols_lt hcomm hv)).2 h
  rwa [← canon_eq hcomm, ← canon_eq hcomm, (C42_columns_canonical_nonzero hcomm u hu).1, (C42_columns_canonical_nonzero hcomm v hv).1] at this

/-- **C42, shape.** Every column stems from a block: it is a product of one operator of each of the parties of that block. -/
theorem C42_columns_of_shape (m : List Nat) (hm : m ∈ problemCols S D q commuting card specs) :
    ∃ block ∈ specs, ∃ w, List.Forall₂ (fun x p => Allowed S card p x) w block ∧ Same S D q w m ∧ m.length = block.length := by
  obtain ⟨b, hbs, hb⟩ := mem_cols.1 hm
  refine ⟨b, hbs, ?_⟩
  rcases hb with ⟨rfl, rfl⟩ | ⟨_, w, hw, hc, _, hl⟩
  · exact ⟨[], .nil, .refl _, rfl⟩
  · have hp := product_mem (ops_ok S card) hw
    have hlt : ∀ x ∈ w, x < S.lexorder.length + 1 := fun x hx => ((ops_ok S card).lt _ x (hp.2.2 x hx)).2
    refine ⟨w, ?_, ?_, hl⟩
    · rw [mem_product] at hw
      have : ∀ (w b : List Nat), List.Forall₂ (fun x l => x ∈ l) w (b.map (measOps S.sdpLexorder card)) → List.Forall₂ (fun x p => Allowed S card p x) w b := by
        intro w b h
        induction b generalizing w with
        | nil => cases h; exact .nil
        | cons p b ih =>
          cases h with
          | cons h1 h2 => exact .cons ((mem_measOps S card).1 h1) (ih _ h2)
      exact this w b hw
    · have h1 := (C03_canonical_decides_operator_equality (scenario_operatorList S D.tbl q) w m hlt (cols_lt hcomm hm)).1
      apply h1
      rw [← canon_eq hcomm, ← canon_eq hcomm, hc, (C42_columns_canonical_nonzero hcomm m hm).1]

/-- **C42, nothing missing.** Every product of one operator of each party of a block is a column, unless it vanishes or simplifies to a shorter monomial. -/
theorem C42_products_present (block : List Nat) (hb : block ∈ specs) (w : List Nat) (hw : List.Forall₂ (fun x p => Allowed S card p x) w block)
    (h0 : ¬ Same S D q w [0]) (hshort : ∀ v, (∀ x ∈ v, x < S.lexorder.length + 1) → Same S D q w v → w.length ≤ v.length) :
    ∃ m ∈ problemCols S D q commuting card specs, Same S D q w m := by
  have hlen := hw.length_eq
  have hprod : w ∈ product (block.map (measOps S.sdpLexorder card)) := by
    rw [mem_product]
    have : ∀ (w b : List Nat), List.Forall₂ (fun x p => Allowed S card p x) w b → List.Forall₂ (fun x l => x ∈ l) w (b.map (measOps S.sdpLexorder card)) := by
      intro w b h
      induction h with
      | nil => exact .nil
      | cons h1 _ ih => exact .cons ((mem_measOps S card).2 h1) ih
    exact this w block hw
  have hlt : ∀ x ∈ w, x < S.lexorder.length + 1 := fun x hx =>
    ((ops_ok S card).lt _ x ((product_mem (ops_ok S card) hprod).2.2 x hx)).2
  have H := scenario_operatorList S D.tbl q
  have hsame : Same S D q w (toCanonical (padMat (S.notcomm D.tbl q)) S.orthomat commuting false w) := by
    rw [canon_eq hcomm]
    apply (C03_canonical_decides_operator_equality H w _ hlt (toCanonical_lt H hlt)).1
    rw [C04_canonical_idempotent _ _ H.nc_symm H.nc_diag]
  refine ⟨toCanonical (padMat (S.notcomm D.tbl q)) S.orthomat commuting false w, ?_, hsame⟩
  refine mem_cols.2 ⟨block, hb, ?_⟩
  by_cases he : block = []
  · subst he
    left
    have : w = [] := List.length_eq_zero_iff.1 (by simpa using hlen)
    subst this
    exact ⟨rfl, by simp [toCanonical]⟩
  · right
    refine ⟨he, w, hprod, rfl, ?_, ?_⟩
    · intro e
      rw [e] at hsame
      exact h0 hsame
    · have h1 := hshort _ (by rw [canon_eq hcomm]; exact toCanonical_lt H hlt) hsame
      rw [canon_eq hcomm] at h1 ⊢
      have := canon_length_le (nc := padMat (S.notcomm D.tbl q)) (om := S.orthomat) w
      omega

/-- Completeness of block specifications containing the sorted block of parties. -/
theorem complete_of_blocks (hparty : PartiesCommute S D q) (w : List Nat) (hw : ∀ x ∈ w, ∃ p, Allowed S card p x) (h0 : ¬ Same S D q w [0])
    (hspec : ∀ m : List Nat, m.length ≤ w.length → (∀ p, (m.map (partyOf S)).count p ≤ (w.map (partyOf S)).count p) → (∀ x ∈ m, partyOf S x < S.nParties) →
      (sortBy (fun a b => decide (partyOf S a ≤ partyOf S b)) m).map (partyOf S) ∈ specs) :
    ∃ m ∈ problemCols S D q commuting card specs, Same S D q w m := by
  have H := scenario_operatorList S D.tbl q
  have hO := ops_ok S card
  have hops : ∀ x ∈ w, x ∈ measOps S.sdpLexorder card (partyOf S x) := by
    intro x hx
    obtain ⟨p, hp⟩ := hw x hx
    have := (mem_measOps S card).2 hp
    rwa [hO.party p x this]
  have hlt : ∀ x ∈ w, x < S.lexorder.length + 1 := fun x hx => (hO.lt _ x (hops x hx)).2
  have hsame : Same S D q w (toCanonical (padMat (S.notcomm D.tbl q)) S.orthomat commuting false w) := by
    rw [canon_eq hcomm]
    apply (C03_canonical_decides_operator_equality H w _ hlt (toCanonical_lt H hlt)).1
    rw [C04_canonical_idempotent _ _ H.nc_symm H.nc_diag]
  refine ⟨toCanonical (padMat (S.notcomm D.tbl q)) S.orthomat commuting false w, ?_, hsame⟩
  set m := toCanonical (padMat (S.notcomm D.tbl q)) S.orthomat commuting false w with hm
  have hm0 : m ≠ [0] := by
    intro e
    rw [e] at hsame
    exact h0 hsame
  have hm' : m = toCanonical (padMat (S.notcomm D.tbl q)) S.orthomat false false w := by rw [hm, canon_eq hcomm]
  have hmw : ∀ x ∈ m, x ∈ w := by
    intro x hx
    rw [hm'] at hx hm0
    rcases canon_mem hx with h | h
    · exact h
    · exact absurd h hm0
  have hcount : ∀ p, (m.map (partyOf S)).count p ≤ (w.map (partyOf S)).count p := by
    have hsub : List.Subperm m w := by
      rw [hm']
      rw [hm'] at hm0
      rw [toCanonical_eq] at hm0 ⊢
      split
      · rename_i hp
        rw [if_pos hp] at hm0
        exact absurd rfl hm0
      · have hsl : ∀ l : List Nat, (removeSquares l).Sublist l := by
          intro l
          fun_induction removeSquares l with
          | case1 => exact .slnil
          | case2 a => exact List.Sublist.refl _
          | case3 b t ih => exact ih.cons _
          | case4 a b t hne ih => exact ih.cons₂ _
        exact (hsl _).subperm.trans (canon_sound _ w).perm.symm.subperm
    intro p
    obtain ⟨l, hl1, hl2⟩ := hsub
    rw [← (hl1.map (partyOf S)).count_eq]
    exact (hl2.map (partyOf S)).count_le p
  refine mem_cols.2 ⟨_, hspec m ?_ hcount ?_, ?_⟩
  · rw [hm']; exact canon_length_le w
  · intro x hx
    have := hO.lt _ x (hops x (hmw x hx))
    exact partyOf_lt S this.1 this.2
  · refine fromBlock_complete H hcomm hO (partiesCommute_nc hparty) ?_ hm0 (fun x hx => hops x (hmw x hx))
    rw [canon_eq hcomm, hm', C04_canonical_idempotent _ _ H.nc_symm H.nc_diag]

omit hcomm in
theorem sorted_parties (party : Nat → Nat) (m : List Nat) : ((sortBy (fun a b => decide (party a ≤ party b)) m).map party).Pairwise (· ≤ ·) := by
  rw [List.pairwise_map]
  refine (sortBy_sorted (fun a b => decide (party a ≤ party b)) ?_ ?_ m).imp ?_
  · intro a b
    simp only [decide_eq_true_eq]
    omega
  · intro a b c
    simp only [decide_eq_true_eq]
    omega
  · intro a b h
    simpa using h

omit hcomm in
theorem le_cutoff {n level maxLen : Nat} : n ≤ cutoff level maxLen ↔ n ≤ level ∧ (0 < maxLen → n ≤ maxLen) := by
  unfold cutoff
  split <;> omega

omit hcomm in
theorem length_le_sum (w lengths : List Nat) (hw : ∀ x ∈ w, x < lengths.length) (h : ∀ p, p < lengths.length → w.count p ≤ lengths.getD p 0) :
    w.length ≤ lengths.sum := by
  have hone : ∀ (n a : Nat), a < n → ((List.range n).map fun p => if a = p then 1 else 0).sum = 1 := by
    intro n
    induction n with
    | zero => intro a h; omega
    | succ n ih =>
      intro a h
      rw [List.range_succ, List.map_append, List.sum_append]
      by_cases e : a = n
      · subst e
        have : (List.range a).map (fun p => if a = p then 1 else 0) = (List.range a).map fun _ => 0 := by
          refine List.map_congr_left ?_
          intro p hp
          have := List.mem_range.1 hp
          rw [if_neg (by omega)]
        rw [this]
        simp
      · rw [ih a (by omega)]
        simp [e]
  have hsum : ∀ (w : List Nat) (n : Nat), (∀ x ∈ w, x < n) → w.length = ((List.range n).map fun p => w.count p).sum := by
    intro w n
    induction w with
    | nil => intro _; simp
    | cons a w ih =>
      intro hw
      have h1 : ((List.range n).map fun p => (a :: w).count p) = (List.range n).map fun p => w.count p + if a = p then 1 else 0 := by
        refine List.map_congr_left ?_
        intro p _
        rw [List.count_cons]
        simp
      rw [h1, List.sum_map_add, ← ih fun x hx => hw x (by simp [hx]), hone n a (hw a (by simp))]
      rfl
  have hle : ∀ (l : List Nat) (f g : Nat → Nat), (∀ p ∈ l, f p ≤ g p) → (l.map f).sum ≤ (l.map g).sum := by
    intro l f g
    induction l with
    | nil => intro _; simp
    | cons a l ih =>
      intro h
      simp only [List.map_cons, List.sum_cons]
      exact Nat.add_le_add (h a (by simp)) (ih fun p hp => h p (by simp [hp]))
  have hl : ((List.range lengths.length).map fun p => lengths.getD p 0) = lengths := by
    refine List.ext_getElem (by simp) ?_
    intro k h1 h2
    simp [h2]
  rw [hsum w _ hw]
  calc _ ≤ ((List.range lengths.length).map fun p => lengths.getD p 0).sum := hle _ _ _ fun p hp => h p (List.mem_range.1 hp)
    _ = lengths.sum := by rw [hl]

/-- **C42, NPA levels.** When operators of different parties commute, the columns of `"npaN"` are, up to equality of operators, exactly the non-vanishing products of at most `N` operators (and at most `max_monomial_length`, if that is positive); each occurs once, and the unit comes first. -/
theorem C42_npa_level (hparty : PartiesCommute S D q) (level maxLen : Nat) :
    (∀ m ∈ problemCols S D q commuting card (npaSpecs S.nParties level maxLen),
      (∀ x ∈ m, ∃ p, Allowed S card p x) ∧ (m.length ≤ level ∧ (0 < maxLen → m.length ≤ maxLen)) ∧ ¬ Same S D q m [0]) ∧
    (∀ w, (∀ x ∈ w, ∃ p, Allowed S card p x) → w.length ≤ level → (0 < maxLen → w.length ≤ maxLen) → ¬ Same S D q w [0] →
      ∃ m ∈ problemCols S D q commuting card (npaSpecs S.nParties level maxLen), Same S D q w m) ∧
    ((problemCols S D q commuting card (npaSpecs S.nParties level maxLen)).Pairwise fun u v => ¬ Same S D q u v) ∧
    (problemCols S D q commuting card (npaSpecs S.nParties level maxLen)).head? = some [] := by
  refine ⟨?_, ?_, ?_, head_cols⟩
  · intro m hm
    obtain ⟨b, hb, hfb⟩ := mem_cols.1 hm
    have h := fromBlock_sound (scenario_operatorList S D.tbl q) hcomm (ops_ok S card) hfb
    refine ⟨fun x hx => ⟨_, (mem_measOps S card).1 (h.2.2.2.2 x hx)⟩, ?_, (C42_columns_canonical_nonzero hcomm m hm).2⟩
    rw [h.2.2.1]
    exact le_cutoff.1 (mem_npaSpecs.1 hb).2.2
  · intro w hw hl hl' h0
    have hl := le_cutoff.2 ⟨hl, hl'⟩
    apply complete_of_blocks hcomm hparty w hw h0
    intro m hlm _ hp
    rw [mem_npaSpecs]
    have hperm := sortBy_perm (fun a b => decide (partyOf S a ≤ partyOf S b)) m
    refine ⟨sorted_parties _ _, ?_, ?_⟩
    · intro p hpm
      obtain ⟨x, hx, rfl⟩ := List.mem_map.1 hpm
      exact hp x (hperm.mem_iff.1 hx)
    · rw [List.length_map, hperm.length_eq]; omega
  · apply C42_columns_distinct hcomm
    rw [count_npaSpecs]

/-- **C42, local levels.** When operators of different parties commute, the columns of `"localN"` are, up to equality of operators, exactly the non-vanishing products in which each party has at most its level of operators and which are not longer than `max_monomial_length`, if that is positive; each occurs once, and the unit comes first. -/
theorem C42_local_level (hparty : PartiesCommute S D q) (lengths : List Nat) (hl : lengths.length = S.nParties) (maxLen : Nat) :
    (∀ m ∈ problemCols S D q commuting card (localSpecs S.nParties lengths maxLen),
      (∀ x ∈ m, ∃ p, Allowed S card p x) ∧ (0 < maxLen → m.length ≤ maxLen) ∧
      (∀ p, p < S.nParties → (m.map (partyOf S)).count p ≤ lengths.getD p 0) ∧ ¬ Same S D q m [0]) ∧
    (∀ w, (∀ x ∈ w, ∃ p, Allowed S card p x) → (0 < maxLen → w.length ≤ maxLen) →
      (∀ p, p < S.nParties → (w.map (partyOf S)).count p ≤ lengths.getD p 0) → ¬ Same S D q w [0] →
      ∃ m ∈ problemCols S D q commuting card (localSpecs S.nParties lengths maxLen), Same S D q w m) ∧
    ((problemCols S D q commuting card (localSpecs S.nParties lengths maxLen)).Pairwise fun u v => ¬ Same S D q u v) ∧
    (problemCols S D q commuting card (localSpecs S.nParties lengths maxLen)).head? = some [] := by
  refine ⟨?_, ?_, ?_, ?_⟩
  · intro m hm
    obtain ⟨b, hb, hfb⟩ := mem_cols.1 hm
    have h := fromBlock_sound (scenario_operatorList S D.tbl q) hcomm (ops_ok S card) hfb
    have hb := (mem_localSpecs hl).1 hb
    refine ⟨fun x hx => ⟨_, (mem_measOps S card).1 (h.2.2.2.2 x hx)⟩, ?_, ?_, (C42_columns_canonical_nonzero hcomm m hm).2⟩
    · rw [h.2.2.1]
      exact (le_cutoff.1 hb.2.2.2).2
    · intro p hp
      rw [h.2.2.2.1.count_eq]
      exact hb.2.2.1 p hp
  · intro w hw hlw' hcw h0
    have hsum : w.length ≤ lengths.sum := by
      have := length_le_sum (w.map (partyOf S)) lengths (by
        intro x hx
        obtain ⟨y, hy, rfl⟩ := List.mem_map.1 hx
        obtain ⟨p, hp⟩ := hw y hy
        have := (ops_ok S card).lt p y ((mem_measOps S card).2 hp)
        rw [hl]
        exact partyOf_lt S this.1 this.2) (by rw [hl]; exact hcw)
      rwa [List.length_map] at this
    have hlw : w.length ≤ cutoff lengths.sum maxLen := le_cutoff.2 ⟨hsum, hlw'⟩
    apply complete_of_blocks hcomm hparty w hw h0
    intro m hlm hcm hp
    rw [mem_localSpecs hl]
    have hperm := sortBy_perm (fun a b => decide (partyOf S a ≤ partyOf S b)) m
    refine ⟨sorted_parties _ _, ?_, ?_, ?_⟩
    · intro p hpm
      obtain ⟨x, hx, rfl⟩ := List.mem_map.1 hpm
      exact hp x (hperm.mem_iff.1 hx)
    · intro p hpn
      rw [(hperm.map (partyOf S)).count_eq]
      exact Nat.le_trans (hcm p) (hcw p hpn)
    · rw [List.length_map, hperm.length_eq]; omega
  · exact C42_columns_distinct hcomm (count_localSpecs hl)
  · obtain ⟨t, ht⟩ := head_localSpecs (n := S.nParties) (maxLen := maxLen) hl
    rw [ht]
    exact head_cols

end

/-- **C42, unit.** A specification that begins with the empty block gives a generating set that begins with the unit. -/
theorem C42_unit_first (specs : List (List Nat)) : (problemCols S D q commuting card ([] :: specs)).head? = some [] := head_cols

/-- **C42, columns of a relaxation.** The columns of a specification with at most one empty block satisfy what C19 and C41 assume of the generating set. -/
theorem C42_columns_suit_moment_matrix (hcomm : commuting = true → ∀ a b, padMat (S.notcomm D.tbl q) a b = false) (specs : List (List Nat)) (hs : specs.count [] ≤ 1) :
    Verif.SymMM.ColsOk (S.lexorder.length + 1) (padMat (S.notcomm D.tbl q)) S.orthomat commuting (problemCols S D q commuting card specs) where
  lt := fun m hm => cols_lt hcomm hm
  nodup := nodup_cols hs
  comm := hcomm
  canon := by
    intro m hm
    have h1 := (C42_columns_canonical_nonzero hcomm m hm).1
    have h2 := (C42_columns_canonical_nonzero hcomm m hm).2
    have hc : toCanonical (padMat (S.notcomm D.tbl q)) S.orthomat commuting true m = toCanonical (padMat (S.notcomm D.tbl q)) S.orthomat false true m := by
      cases h : commuting with
      | false => rfl
      | true => exact C05_commuting_shortcut_agrees _ _ true m fun a _ c _ => hcomm h a c
    rw [hc]
    rw [canon_eq hcomm] at h1
    by_cases hl : m.length ≤ 1
    · unfold toCanonical; rw [if_pos hl]
    · have e : toCanonical (padMat (S.notcomm D.tbl q)) S.orthomat false true m = lexmonToCanonical (padMat (S.notcomm D.tbl q)) m := by
        unfold toCanonical; rw [if_neg hl]; simp
      rw [e]
      rw [toCanonical_eq] at h1
      split at h1
      · exfalso
        rw [← h1] at hl
        simp [removeSquares] at hl
      · have hlen := (canon_sound (padMat (S.notcomm D.tbl q)) m).perm.length_eq
        rw [removeSquares_eq_of_length (by rw [h1]; omega)] at h1
        exact h1

/-- **C42, parties commute** in every problem without nonclassical intermediate latents. -/
theorem C42_parties_commute (hlat : D.nonclassicalLatents = []) : PartiesCommute S D q := by
  intro x y a b hx hy hne
  unfold padMat Scenario.notcomm
  rcases x with _ | x
  · simp
  rcases y with _ | y
  · simp
  cases q with
  | false => simp
  | true =>
    simp only [Scenario.sdpLexorder, List.getElem?_cons_succ] at hx hy
    have hxy : x ≠ y := by
      rintro rfl
      rw [hx] at hy
      simp only [Option.some.injEq] at hy
      exact hne (by rw [hy])
    simp only [if_true, Nat.add_sub_cancel, (C06_matrix D S.lexorder).2.2 x y a b hxy hx hy]
    have hc : operatorsCommute D.tbl a b = true := by
      by_contra hcon
      rw [Bool.not_eq_true] at hcon
      obtain ⟨⟨s, src, c, h1, h2, _⟩, _⟩ := (C06_noncommuting_iff D a b).1 hcon
      rcases h2.2 with ⟨d, _, _, e1, e2⟩ | ⟨l, _, _, hl, _⟩
      · have h1 := ((mem_lexorder S).1 (List.mem_of_getElem? hx)).party_pos
        have h2 := ((mem_lexorder S).1 (List.mem_of_getElem? hy)).party_pos
        omega
      · rw [hlat] at hl; simp at hl
    simp [hc]

theorem columnIndexAux_length (cols : List (List Nat)) (i : Nat) (d : State.Dict (List Nat) Nat) (hn : cols.Nodup) (hd : ∀ m ∈ cols, State.Dict.get d m = none) :
    (Verif.Normalization.columnIndexAux i d cols).length = d.length + cols.length := by
  induction cols generalizing i d with
  | nil => rfl
  | cons m cols ih =>
    have hset : ∀ (d : State.Dict (List Nat) Nat) v, State.Dict.get d m = none → (State.Dict.set d m v).length = d.length + 1 := by
      intro d v
      induction d with
      | nil => intro _; rfl
      | cons t d ih2 =>
        intro h
        obtain ⟨a, b⟩ := t
        rw [State.get_cons] at h
        by_cases e : a = m
        · simp [e] at h
        · rw [if_neg e] at h
          simp only [State.Dict.set, e, if_false, List.length_cons, ih2 h]
    rw [Verif.Normalization.columnIndexAux, ih _ _ (List.nodup_cons.1 hn).2, hset d i (hd m (by simp)), List.length_cons]
    · omega
    · intro m' hm'
      rw [State.get_set]
      rw [if_neg (by rintro rfl; exact (List.nodup_cons.1 hn).1 hm')]
      exact hd m' (by simp [hm'])

/-- **C42, final check.** The check at the end of `build_columns` neither adds nor loses a column, and leaves a list without repetition (which C42_columns_distinct guarantees if the empty block is written at most once) in its order. -/
theorem C42_final_check (cols : List (List Nat)) : (finish cols).Perm cols ∧ (cols.Nodup → finish cols = cols) := by
  unfold finish
  constructor
  · split
    · exact sortBy_perm _ _
    · exact List.Perm.refl _
  · intro hn
    rw [if_neg]
    have := columnIndexAux_length cols 0 [] hn (fun _ _ => rfl)
    simpa [Verif.Normalization.columnIndex] using this

/-- **C42, repeated unit.** Writing the empty block twice gives the unit column twice; the check at the end of `build_columns` sorts the columns but keeps both. -/
theorem C42_repeated_unit : problemCols S D q commuting card [[], []] = [[], []] ∧ finish [[], []] = [[], []] := by
  constructor
  · simp [problemCols, colsFromSpecs, blockStep]
  · decide

end Verif.Columns

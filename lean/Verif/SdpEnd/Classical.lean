import Verif.SdpEnd.Answers
import Verif.SdpEnd.Spec
import Verif.SdpEnd.Atoms
import Verif.EndToEnd.Inflated
import Verif.EndToEnd.Factor
import Verif.EndToEnd.Known
import Mathlib.Algebra.Star.Pi
import Mathlib.Data.Real.Star
/-!
Classical causal models are models of the inflated network: the algebra of functions of the values of all copies of the sources and of the answers to all measurements.
-/
namespace Verif.SdpEnd
open Verif.Common Verif.Canon Verif.Canon.Spec Verif.Scenario Verif.Components Verif.Moment Verif.MomentMatrix Verif.Normalization Verif.CollinsGisin
open Verif.State (Dict Mon)
open Verif.EndToEnd
open Verif.Symmetry (img padRow inducedRow)

section
variable (S : Scenario)

/-- Every party receives something from a source (asserted by the code, InflationProblem.py 268-270). -/
def Sourced : Prop := ∀ p, p < S.nParties → ∃ s, s < S.nSources ∧ S.hyp s p = true

abbrev Rank := Fin S.lexorder.length
abbrev Question := {k : Nat × List Nat × Nat // k ∈ S.measKeys}

theorem key_mem {op : Op} (h : op ∈ S.lexorder) : op.key ∈ S.measKeys ∧ op ∈ S.orthoGroup op.key := by
  rw [lexorder_eq, List.mem_flatMap] at h
  obtain ⟨k, hk, ho⟩ := h
  have := key_of_mem_orthoGroup S ho
  rw [this]
  exact ⟨hk, ho⟩

/-- The measurement an operator belongs to. -/
def question (r : Rank S) : Question S := ⟨S.lexorder[r].key, (key_mem S (List.getElem_mem r.2)).1⟩

theorem first_mem (hout : ∀ p, p < S.nParties → 1 ≤ S.outcomes p) (q : Question S) : (⟨q.1.1, q.1.2.1, q.1.2.2, 0⟩ : Op) ∈ S.lexorder := by
  have hk := (mem_measKeys S).1 q.2
  exact mem_lex_of_group S q.2 (List.mem_map.2 ⟨0, List.mem_range.2 (hout _ (by omega)), rfl⟩)

/-- The first outcome of a measurement. -/
def firstAnswer (hout : ∀ p, p < S.nParties → 1 ≤ S.outcomes p) (q : Question S) : Rank S :=
  ⟨S.lexorder.idxOf ⟨q.1.1, q.1.2.1, q.1.2.2, 0⟩, List.idxOf_lt_length_iff.2 (first_mem S hout q)⟩

theorem question_first (hout : ∀ p, p < S.nParties → 1 ≤ S.outcomes p) (q : Question S) : question S (firstAnswer S hout q) = q := by
  apply Subtype.ext
  show (S.lexorder[S.lexorder.idxOf (⟨q.1.1, q.1.2.1, q.1.2.2, 0⟩ : Op)]'(List.idxOf_lt_length_iff.2 (first_mem S hout q))).key = q.1
  rw [List.getElem_idxOf]
  rfl

theorem mem_block_iff (q : Question S) (r : Rank S) : r.1 ∈ blockOf S q.1 ↔ question S r = q := by
  unfold blockOf
  rw [List.mem_map]
  constructor
  · rintro ⟨op, ho, e⟩
    apply Subtype.ext
    have hm := mem_lex_of_group S q.2 ho
    show S.lexorder[r.1].key = q.1
    have : S.lexorder[r.1] = op := by
      have h1 : S.lexorder[r.1]? = some op := by
        rw [← e, List.getElem?_eq_getElem (List.idxOf_lt_length_iff.2 hm), List.getElem_idxOf]
      rw [List.getElem?_eq_getElem r.2] at h1
      exact Option.some.inj h1
    rw [this]
    exact key_of_mem_orthoGroup S ho
  · rintro rfl
    exact ⟨S.lexorder[r.1], (key_mem S (List.getElem_mem r.2)).2, List.Nodup.idxOf_getElem (lexorder_nodup S) _ _⟩

theorem block_lt {k : Nat × List Nat × Nat} (hk : k ∈ S.measKeys) {r : Nat} (h : r ∈ blockOf S k) : r < S.lexorder.length := by
  unfold blockOf at h
  obtain ⟨op, ho, rfl⟩ := List.mem_map.1 h
  exact List.idxOf_lt_length_iff.2 (mem_lex_of_group S hk ho)

theorem block_nodup {k : Nat × List Nat × Nat} (hk : k ∈ S.measKeys) : (blockOf S k).Nodup := by
  unfold blockOf
  refine List.Nodup.map_on ?_ ?_
  · intro a ha b hb e
    have h1 := List.idxOf_lt_length_iff.2 (mem_lex_of_group S hk ha)
    have h2 := List.idxOf_lt_length_iff.2 (mem_lex_of_group S hk hb)
    have : S.lexorder[S.lexorder.idxOf a] = S.lexorder[S.lexorder.idxOf b] := by simp only [e]
    rwa [List.getElem_idxOf, List.getElem_idxOf] at this
  · unfold Scenario.orthoGroup
    exact List.Nodup.map (fun a b e => by simpa using e) List.nodup_range

/-- The operators of a measurement, as ranks. -/
def blockRanks (q : Question S) : List (Rank S) := (blockOf S q.1).attach.map fun r => ⟨r.1, block_lt S q.2 r.2⟩

theorem blockRanks_val (q : Question S) : (blockRanks S q).map (·.1) = blockOf S q.1 := by
  unfold blockRanks
  rw [List.map_map]
  exact List.attach_map_subtype_val _

theorem mem_blockRanks (q : Question S) (r : Rank S) : r ∈ blockRanks S q ↔ question S r = q := by
  rw [← mem_block_iff, ← blockRanks_val]
  constructor
  · intro h
    exact List.mem_map.2 ⟨r, h, rfl⟩
  · intro h
    obtain ⟨s, hs, e⟩ := List.mem_map.1 h
    rwa [← Fin.ext e]

theorem blockRanks_nodup (q : Question S) : (blockRanks S q).Nodup := by
  have := block_nodup S q.2
  rw [← blockRanks_val] at this
  exact List.Nodup.of_map _ this

end

/-- The words without the zero operator, as lists of ranks. -/
theorem word_cases {I : Input} {w : List Nat} (h : InRange I w) : 0 ∈ w ∨ ∃ e : List (Rank I.scenario), w = e.map fun r => r.1 + 1 := by
  induction w with
  | nil => exact .inr ⟨[], rfl⟩
  | cons x w ih =>
    by_cases hx : x = 0
    · exact .inl (by simp [hx])
    · rcases ih (fun y hy => h y (List.mem_cons_of_mem _ hy)) with h0 | ⟨e, rfl⟩
      · exact .inl (List.mem_cons_of_mem _ h0)
      · have := h x (by simp)
        unfold nOps at this
        refine .inr ⟨⟨x - 1, by omega⟩ :: e, ?_⟩
        simp only [List.map_cons, List.cons.injEq, and_true]
        omega

section
variable {I : Input} {Λ : Type} [Fintype Λ] (M : ClassicalModel I.scenario I.observed Λ ℝ)

/-- The values of all copies of the sources and the answers to all measurements. -/
abbrev Sample (I : Input) (Λ : Type) := (Copy I.scenario → Λ) × (Question I.scenario → Rank I.scenario)

/-- The functions of the sample. -/
abbrev Observable (I : Input) (Λ : Type) := Sample I Λ → ℝ

/-- The answers, given the values of the sources. -/
noncomputable def weight (ν : Copy I.scenario → Λ) : Question I.scenario → Rank I.scenario → ℝ := answerWeight (question I.scenario) fun r => M.rankResponse r.1 ν

/-- The expectation of an observable. -/
noncomputable def mean (f : Observable I Λ) : ℝ := expect (fun c : Copy I.scenario => M.source c.1) fun ν => expect (weight M ν) fun g => f (ν, g)

theorem expect_add {J A : Type} [Fintype J] [DecidableEq J] [Fintype A] (w : J → A → ℝ) (f g : (J → A) → ℝ) : expect w (fun ν => f ν + g ν) = expect w f + expect w g := by
  unfold expect
  rw [← Finset.sum_add_distrib]
  exact Finset.sum_congr rfl fun ν _ => by ring

theorem expect_smul {J A : Type} [Fintype J] [DecidableEq J] [Fintype A] (w : J → A → ℝ) (c : ℝ) (f : (J → A) → ℝ) : expect w (fun ν => c * f ν) = c * expect w f := by
  unfold expect
  rw [Finset.mul_sum]
  exact Finset.sum_congr rfl fun ν _ => by ring

/-- The state. -/
noncomputable def state : Observable I Λ →ₗ[ℝ] ℂ where
  toFun f := ((mean M f : ℝ) : ℂ)
  map_add' f g := by
    rw [← Complex.ofReal_add]
    congr 1
    unfold mean
    rw [← expect_add]
    exact expect_congr _ fun ν => expect_add _ _ _
  map_smul' c f := by
    rw [RingHom.id_apply, Complex.real_smul, ← Complex.ofReal_mul]
    congr 1
    unfold mean
    rw [← expect_smul]
    exact expect_congr _ fun ν => expect_smul _ c _

variable (hout : ∀ p, p < I.scenario.nParties → 1 ≤ I.scenario.outcomes p)

/-- The operator of a rank. -/
noncomputable def operatorAt (Λ : Type) (x : Nat) : Observable I Λ :=
  if h : 0 < x ∧ x < nOps I then fun t => given (question I.scenario) (firstAnswer I.scenario hout) ⟨x - 1, by unfold nOps at h; omega⟩ t.2 else 0

omit [Fintype Λ] in
theorem operatorAt_succ (r : Rank I.scenario) : operatorAt hout Λ (r.1 + 1) = fun t => given (question I.scenario) (firstAnswer I.scenario hout) r t.2 := by
  unfold operatorAt
  rw [dif_pos ⟨by omega, by unfold nOps; omega⟩]
  rfl

omit [Fintype Λ] in
theorem op_zero {w : List Nat} (h : 0 ∈ w) : op (operatorAt hout Λ) w = 0 := by
  unfold op
  apply List.prod_eq_zero
  refine List.mem_map.2 ⟨0, h, ?_⟩
  unfold operatorAt
  rw [dif_neg (by omega)]

theorem op_word (e : List (Rank I.scenario)) : op (operatorAt hout Λ) (e.map fun r => r.1 + 1) =
    fun t => (e.map fun r => given (question I.scenario) (firstAnswer I.scenario hout) r t.2).prod := by
  induction e with
  | nil => rfl
  | cons r e ih =>
    unfold op at ih ⊢
    rw [List.map_cons, List.map_cons, List.prod_cons, ih, operatorAt_succ]
    rfl

include hout in
theorem response_total (hI : I.Accepted) (ν : Copy I.scenario → Λ) (q : Question I.scenario) :
    ∑ r : Rank I.scenario, (if question I.scenario r = q then M.rankResponse r.1 ν else 0) = 1 := by
  rw [← M.group_sum hI.ok hout q.2 ν, ← blockRanks_val, List.map_map, ← Finset.sum_filter]
  have : Finset.univ.filter (fun r : Rank I.scenario => question I.scenario r = q) = (blockRanks I.scenario q).toFinset := by
    ext r
    simp [mem_blockRanks]
  rw [this, List.sum_toFinset _ (blockRanks_nodup I.scenario q)]
  rfl

/-- The mean of a product of operators. -/
theorem mean_word (hI : I.Accepted) (e : List (Rank I.scenario)) :
    mean M (op (operatorAt hout Λ) (e.map fun r => r.1 + 1)) = if Consistent (question I.scenario) e then M.event (e.dedup.map (·.1)) else 0 := by
  unfold mean
  rw [op_word]
  have : ∀ ν : Copy I.scenario → Λ, expect (weight M ν) (fun g => (fun t : Sample I Λ => (e.map fun r => (given (question I.scenario) (firstAnswer I.scenario hout) r t.2 : ℝ)).prod) (ν, g)) =
      if Consistent (question I.scenario) e then (e.dedup.map fun r => M.rankResponse r.1 ν).prod else 0 := fun ν =>
    expect_answers (response_total M hout hI ν) e
  rw [expect_congr _ this]
  split
  · unfold ClassicalModel.event
    apply expect_congr
    intro ν
    rw [List.map_map]
    rfl
  · unfold expect
    simp

/-- An operator acts on some copy of a source. -/
theorem share_self (hs : Sourced I.scenario) {op : Op} (h : Valid I.scenario op) : ShareCopy op op := by
  obtain ⟨s, h1, h2⟩ := hs (op.party - 1) (by have := h.party_pos; have := h.party_le; omega)
  have hlt : s < op.copies.length := by rw [h.copies_len]; exact h1
  have := h.copies_ok s hlt
  rw [if_pos h2] at this
  exact ⟨s, op.copies[s], by omega, List.getElem?_eq_getElem hlt, List.getElem?_eq_getElem hlt⟩

theorem share_question (hs : Sourced I.scenario) {a b : Rank I.scenario} (h : question I.scenario a = question I.scenario b) :
    ShareCopy I.scenario.lexorder[a] I.scenario.lexorder[b] := by
  have h1 := Verif.Symmetry.lex_valid I.scenario a.2
  have h2 : I.scenario.lexorder[a].key = I.scenario.lexorder[b].key := congrArg Subtype.val h
  have h3 : I.scenario.lexorder[a].copies = I.scenario.lexorder[b].copies := congrArg (fun k => k.2.1) h2
  obtain ⟨s, c, h4, h5, h6⟩ := share_self hs h1
  exact ⟨s, c, h4, h5, by rw [← h3]; exact h6⟩

theorem sdpLexorder_succ (r : Rank I.scenario) : I.scenario.sdpLexorder[r.1 + 1]? = some I.scenario.lexorder[r] := by
  unfold Scenario.sdpLexorder
  rw [List.getElem?_cons_succ, List.getElem?_eq_getElem r.2]
  rfl

include hout in
theorem mean_independent (hI : I.Accepted) (hs : Sourced I.scenario) (u v : List (Rank I.scenario))
    (h : ∀ a ∈ u, ∀ b ∈ v, ¬ ShareCopy I.scenario.lexorder[a] I.scenario.lexorder[b]) :
    mean M (op (operatorAt hout Λ) ((u ++ v).map fun r => r.1 + 1)) =
      mean M (op (operatorAt hout Λ) (u.map fun r => r.1 + 1)) * mean M (op (operatorAt hout Λ) (v.map fun r => r.1 + 1)) := by
  rw [mean_word M hout hI, mean_word M hout hI, mean_word M hout hI]
  have hq : ∀ a ∈ u, ∀ b ∈ v, question I.scenario a ≠ question I.scenario b := fun a ha b hb e => h a ha b hb (share_question hs e)
  have hc : Consistent (question I.scenario) (u ++ v) ↔ Consistent (question I.scenario) u ∧ Consistent (question I.scenario) v := by
    constructor
    · intro hc
      exact ⟨fun a ha b hb => hc a (List.mem_append_left _ ha) b (List.mem_append_left _ hb), fun a ha b hb => hc a (List.mem_append_right _ ha) b (List.mem_append_right _ hb)⟩
    · rintro ⟨h1, h2⟩ a ha b hb hk
      rcases List.mem_append.1 ha with ha' | ha' <;> rcases List.mem_append.1 hb with hb' | hb'
      · exact h1 a ha' b hb' hk
      · exact absurd hk (hq a ha' b hb')
      · exact absurd hk.symm (hq b hb' a ha')
      · exact h2 a ha' b hb' hk
  by_cases h1 : Consistent (question I.scenario) u
  · by_cases h2 : Consistent (question I.scenario) v
    · rw [if_pos h1, if_pos h2, if_pos (hc.2 ⟨h1, h2⟩)]
      have hdj : List.Disjoint u v := by
        intro a ha hb
        exact hq a ha a hb rfl
      have hperm : (u ++ v).dedup.Perm (u.dedup ++ v.dedup) := by
        rw [List.perm_ext_iff_of_nodup (List.nodup_dedup _)]
        · intro a
          simp
        · rw [List.nodup_append]
          refine ⟨List.nodup_dedup _, List.nodup_dedup _, ?_⟩
          intro a ha b hb e
          subst e
          exact hdj (List.mem_dedup.1 ha) (List.mem_dedup.1 hb)
      rw [M.event_perm (hperm.map _), List.map_append]
      refine M.event_append ?_ ?_ ?_
      · intro r hr
        obtain ⟨a, _, rfl⟩ := List.mem_map.1 hr
        exact a.2
      · intro r hr
        obtain ⟨a, _, rfl⟩ := List.mem_map.1 hr
        exact a.2
      · intro a ha b hb x y hx hy
        obtain ⟨a', ha', rfl⟩ := List.mem_map.1 ha
        obtain ⟨b', hb', rfl⟩ := List.mem_map.1 hb
        rw [List.getElem?_eq_getElem a'.2] at hx
        rw [List.getElem?_eq_getElem b'.2] at hy
        rw [← Option.some.inj hx, ← Option.some.inj hy]
        exact h a' (List.mem_dedup.1 ha') b' (List.mem_dedup.1 hb')
    · rw [if_neg h2, if_neg (fun hh => h2 (hc.1 hh).2), mul_zero]
  · rw [if_neg h1, if_neg (fun hh => h1 (hc.1 hh).1), zero_mul]

/-- The rank permutation induced by a relabelling of copies. -/
theorem relabel_rank {g : Nat → Nat → Nat} (hg : Verif.Symmetry.Relabelling I.scenario g) : ∃ π : Rank I.scenario → Rank I.scenario, Function.Injective π ∧
    (∀ r, (π r).1 = (inducedRow I.scenario g).getD r.1 0) ∧ ∀ a b, question I.scenario (π a) = question I.scenario (π b) ↔ question I.scenario a = question I.scenario b := by
  have hrow : ∀ r : Rank I.scenario, (inducedRow I.scenario g).getD r.1 0 = I.scenario.lexorder.idxOf (Verif.Symmetry.act g I.scenario.lexorder[r]) := by
    intro r
    have := row_act I.scenario (g := g) (List.getElem_mem r.2)
    rwa [List.Nodup.idxOf_getElem (lexorder_nodup I.scenario)] at this
  have hmem : ∀ r : Rank I.scenario, Verif.Symmetry.act g I.scenario.lexorder[r] ∈ I.scenario.lexorder := fun r =>
    (mem_lexorder I.scenario).2 (Verif.Symmetry.act_valid I.scenario hg (Verif.Symmetry.lex_valid I.scenario r.2))
  let π : Rank I.scenario → Rank I.scenario := fun r => ⟨I.scenario.lexorder.idxOf (Verif.Symmetry.act g I.scenario.lexorder[r]), List.idxOf_lt_length_iff.2 (hmem r)⟩
  have hget : ∀ r, I.scenario.lexorder[π r] = Verif.Symmetry.act g I.scenario.lexorder[r] := by
    intro r
    show I.scenario.lexorder[I.scenario.lexorder.idxOf (Verif.Symmetry.act g I.scenario.lexorder[r])]'(List.idxOf_lt_length_iff.2 (hmem r)) = _
    exact List.getElem_idxOf _
  have hval : ∀ r : Rank I.scenario, Valid I.scenario I.scenario.lexorder[r] := fun r => Verif.Symmetry.lex_valid I.scenario r.2
  refine ⟨π, ?_, fun r => (hrow r).symm, ?_⟩
  · intro a b e
    have h1 : Verif.Symmetry.act g I.scenario.lexorder[a] = Verif.Symmetry.act g I.scenario.lexorder[b] := by rw [← hget, ← hget, e]
    exact Fin.ext ((lexorder_nodup I.scenario).getElem_inj_iff.1 (Verif.Symmetry.act_inj I.scenario hg (hval a) (hval b) h1))
  · intro a b
    have hq : ∀ r, (question I.scenario (π r)).1 = actKey g (question I.scenario r).1 := by
      intro r
      show I.scenario.lexorder[π r].key = actKey g I.scenario.lexorder[r].key
      rw [hget]
      rfl
    constructor
    · intro e
      have h1 : actKey g (question I.scenario a).1 = actKey g (question I.scenario b).1 := by rw [← hq, ← hq, e]
      have h2 : actKey g I.scenario.lexorder[a].key = actKey g I.scenario.lexorder[b].key := h1
      have hp : I.scenario.lexorder[a].party = I.scenario.lexorder[b].party := congrArg (·.1) h2
      have hc : I.scenario.lexorder[a].copies.mapIdx g = I.scenario.lexorder[b].copies.mapIdx g := congrArg (·.2.1) h2
      have hs : I.scenario.lexorder[a].setting = I.scenario.lexorder[b].setting := congrArg (·.2.2) h2
      have hva := hval a
      have hvb : Valid I.scenario ⟨I.scenario.lexorder[b].party, I.scenario.lexorder[b].copies, I.scenario.lexorder[b].setting, I.scenario.lexorder[a].outcome⟩ :=
        ⟨(hval b).party_pos, (hval b).party_le, (hval b).copies_len, (hval b).copies_ok, (hval b).setting_lt, by
          show I.scenario.lexorder[a].outcome < I.scenario.outcomes (I.scenario.lexorder[b].party - 1)
          rw [← hp]
          exact hva.outcome_lt⟩
      have := Verif.Symmetry.act_inj I.scenario hg hva hvb (by
        unfold Verif.Symmetry.act
        rw [Op.mk.injEq]
        exact ⟨hp, hc, hs, rfl⟩)
      apply Subtype.ext
      show I.scenario.lexorder[a].key = I.scenario.lexorder[b].key
      rw [this]
      rfl
    · intro e
      apply Subtype.ext
      rw [hq, hq, e]

theorem dedup_map {α β : Type} [DecidableEq α] [DecidableEq β] (f : α → β) (hf : Function.Injective f) (l : List α) : (l.map f).dedup = l.dedup.map f := by
  induction l with
  | nil => rfl
  | cons a l ih =>
    rw [List.map_cons]
    by_cases h : a ∈ l
    · rw [List.dedup_cons_of_mem h, List.dedup_cons_of_mem (List.mem_map.2 ⟨a, h, rfl⟩), ih]
    · rw [List.dedup_cons_of_notMem h, List.dedup_cons_of_notMem (by
        intro h2
        obtain ⟨b, hb, e⟩ := List.mem_map.1 h2
        exact h (hf e ▸ hb)), ih, List.map_cons]

include hout in
theorem mean_symmetric (hI : I.Accepted) {g : Nat → Nat → Nat} (hg : Verif.Symmetry.Relabelling I.scenario g) (e : List (Rank I.scenario)) :
    mean M (op (operatorAt hout Λ) ((e.map fun r => r.1 + 1).map (img (padRow (inducedRow I.scenario g))))) = mean M (op (operatorAt hout Λ) (e.map fun r => r.1 + 1)) := by
  obtain ⟨π, h1, h2, h3⟩ := relabel_rank hg
  have hmap : ((e.map fun r => r.1 + 1).map (img (padRow (inducedRow I.scenario g)))) = (e.map π).map fun r => r.1 + 1 := by
    rw [List.map_map, List.map_map]
    apply List.map_congr_left
    intro r _
    show img (padRow (inducedRow I.scenario g)) (r.1 + 1) = (π r).1 + 1
    have hl : r.1 < (inducedRow I.scenario g).length := by rw [Verif.Symmetry.inducedRow_length]; exact r.2
    rw [h2, List.getD_eq_getElem _ _ hl]
    unfold img padRow
    rw [List.getD_eq_getElem _ _ (by simpa using hl), List.getElem_cons_succ, List.getElem_map]
  rw [hmap, mean_word M hout hI, mean_word M hout hI]
  have hc : Consistent (question I.scenario) (e.map π) ↔ Consistent (question I.scenario) e := by
    constructor
    · intro h a ha b hb hk
      exact h1 (h (π a) (List.mem_map.2 ⟨a, ha, rfl⟩) (π b) (List.mem_map.2 ⟨b, hb, rfl⟩) ((h3 a b).2 hk))
    · intro h x hx y hy hk
      obtain ⟨a, ha, rfl⟩ := List.mem_map.1 hx
      obtain ⟨b, hb, rfl⟩ := List.mem_map.1 hy
      rw [h a ha b hb ((h3 a b).1 hk)]
  by_cases h : Consistent (question I.scenario) e
  · rw [if_pos h, if_pos (hc.2 h), dedup_map π h1]
    have := M.event_act hg (e := e.dedup.map (·.1)) (by
      intro r hr
      obtain ⟨a, _, rfl⟩ := List.mem_map.1 hr
      exact a.2)
    rw [← this, List.map_map, List.map_map]
    congr 1
    apply List.map_congr_left
    intro r _
    exact h2 r
  · rw [if_neg h, if_neg (fun hh => h (hc.1 hh))]

theorem weight_nonneg (ν : Copy I.scenario → Λ) (q : Question I.scenario) (r : Rank I.scenario) : 0 ≤ weight M ν q r := by
  unfold weight answerWeight
  split
  · exact M.rankResponse_nonneg _ _
  · exact le_refl _

theorem mean_nonneg {f : Observable I Λ} (hf : ∀ t, 0 ≤ f t) : 0 ≤ mean M f :=
  expect_nonneg _ (fun (c : Copy I.scenario) v => M.source_nonneg c.1 v) fun ν => expect_nonneg _ (weight_nonneg M ν) fun g => hf (ν, g)

omit [Fintype Λ] in
theorem operators_model : Normalization.Model (nOps I) (notcomm I) (orthomat I) (operatorAt hout Λ) := by
  refine ⟨?_, ?_, fun a b _ _ _ => mul_comm _ _, ?_⟩
  · intro a
    unfold operatorAt
    split
    · refine ⟨funext fun t => given_sq _ _, funext fun t => ?_⟩
      exact star_trivial _
    · simp
  · unfold operatorAt
    rw [dif_neg (by omega)]
  · intro a b ha hb h
    rcases ((operatorList I).ortho_iff a b ha hb).1 h with rfl | rfl | ⟨h1, h2⟩
    · rw [show operatorAt hout Λ 0 = 0 by unfold operatorAt; rw [dif_neg (by omega)], zero_mul]
    · rw [show operatorAt hout Λ 0 = 0 by unfold operatorAt; rw [dif_neg (by omega)], mul_zero]
    · rcases Nat.eq_zero_or_pos a with rfl | hpa
      · rw [show operatorAt hout Λ 0 = 0 by unfold operatorAt; rw [dif_neg (by omega)], zero_mul]
      rcases Nat.eq_zero_or_pos b with rfl | hpb
      · rw [show operatorAt hout Λ 0 = 0 by unfold operatorAt; rw [dif_neg (by omega)], mul_zero]
      unfold nOps at ha hb
      have hla : a - 1 < I.scenario.lexorder.length := by omega
      have hlb : b - 1 < I.scenario.lexorder.length := by omega
      have hk := (measIdx_eq_iff I.scenario hla hlb).1 h2
      have e1 : operatorAt hout Λ a = fun t => given (question I.scenario) (firstAnswer I.scenario hout) ⟨a - 1, hla⟩ t.2 := by
        have := operatorAt_succ hout (Λ := Λ) ⟨a - 1, hla⟩
        rwa [show (⟨a - 1, hla⟩ : Rank I.scenario).1 + 1 = a from by show a - 1 + 1 = a; omega] at this
      have e2 : operatorAt hout Λ b = fun t => given (question I.scenario) (firstAnswer I.scenario hout) ⟨b - 1, hlb⟩ t.2 := by
        have := operatorAt_succ hout (Λ := Λ) ⟨b - 1, hlb⟩
        rwa [show (⟨b - 1, hlb⟩ : Rank I.scenario).1 + 1 = b from by show b - 1 + 1 = b; omega] at this
      rw [e1, e2]
      funext t
      refine given_ortho ?_ (Subtype.ext hk) t.2
      intro e
      have := congrArg Fin.val e
      dsimp only at this
      omega

omit [Fintype Λ] in
theorem operators_complete : Complete (scenarioGroups I.scenario) (operatorAt hout Λ) := by
  intro g hg
  unfold scenarioGroups Scenario.orthoGroups at hg
  rw [List.map_map] at hg
  obtain ⟨k, hk, rfl⟩ := List.mem_map.1 hg
  have h1 : ((I.scenario.orthoGroup k).map fun op => I.scenario.lexorder.idxOf op + 1) = (blockRanks I.scenario ⟨k, hk⟩).map fun r => r.1 + 1 := by
    rw [show ((I.scenario.orthoGroup k).map fun op => I.scenario.lexorder.idxOf op + 1) = (blockOf I.scenario k).map (· + 1) by
      unfold blockOf
      rw [List.map_map]
      rfl, ← blockRanks_val I.scenario ⟨k, hk⟩, List.map_map]
    rfl
  show (((I.scenario.orthoGroup k).map fun op => I.scenario.lexorder.idxOf op + 1).map (operatorAt hout Λ)).sum = 1
  rw [h1, List.map_map]
  funext t
  have h2 : ∀ l : List (Rank I.scenario), (l.map (operatorAt hout Λ ∘ fun r => r.1 + 1)).sum t = (l.map fun r => (given (question I.scenario) (firstAnswer I.scenario hout) r t.2 : ℝ)).sum := by
    intro l
    induction l with
    | nil => rfl
    | cons r l ih =>
      rw [List.map_cons, List.map_cons, List.sum_cons, List.sum_cons, ← ih, Pi.add_apply]
      congr 1
      show operatorAt hout Λ (r.1 + 1) t = _
      rw [operatorAt_succ]
  rw [h2, given_sum (question_first I.scenario hout) ⟨k, hk⟩ _ (blockRanks_nodup I.scenario _) (mem_blockRanks I.scenario _)]
  rfl

theorem zero_img {r : List Nat} {w : List Nat} (h : 0 ∈ w) : 0 ∈ w.map (img (padRow r)) :=
  List.mem_map.2 ⟨0, h, rfl⟩

/-- **A classical causal model is a model of the inflated network.** -/
noncomputable def ofClassical (hI : I.Accepted) (hs : Sourced I.scenario) : InflatedModel I (Observable I Λ) where
  ρ := operatorAt hout Λ
  φ := state M
  operators := operators_model hout
  complete := operators_complete hout
  unit := by
    have := mean_word M hout hI []
    rw [if_pos (by intro a ha; simp at ha)] at this
    show ((mean M 1 : ℝ) : ℂ) = 1
    have h1 : mean M (1 : Observable I Λ) = 1 := by
      rw [show (1 : Observable I Λ) = op (operatorAt hout Λ) ([].map fun r : Rank I.scenario => r.1 + 1) from rfl, this]
      exact expect_one _ M.weight_sum
    rw [h1]
    simp
  hermitian := by
    intro x
    show ((mean M (star x) : ℝ) : ℂ) = (starRingEnd ℂ) ((mean M x : ℝ) : ℂ)
    rw [Complex.conj_ofReal]
    rfl
  positive := by
    intro x
    show 0 ≤ ((mean M (star x * x) : ℝ) : ℂ).re
    rw [Complex.ofReal_re]
    refine mean_nonneg M fun t => ?_
    show 0 ≤ star (x t) * x t
    rw [star_trivial]
    exact mul_self_nonneg _
  symmetric := by
    intro r hr w hw
    obtain ⟨g, hg, rfl⟩ := Verif.Symmetry.sdp_row I.scenario hr
    rcases word_cases hw with h0 | ⟨e, rfl⟩
    · rw [op_zero hout h0, op_zero hout (zero_img h0)]
    · show ((mean M _ : ℝ) : ℂ) = ((mean M _ : ℝ) : ℂ)
      rw [mean_symmetric M hout hI hg]
  independent := by
    intro u v hu hv h
    rcases word_cases hu with h0 | ⟨e, rfl⟩
    · rw [op_zero hout h0, op_zero hout (List.mem_append_left _ h0), map_zero, zero_mul]
    rcases word_cases hv with h0 | ⟨f, rfl⟩
    · rw [op_zero hout h0, op_zero hout (List.mem_append_right _ h0), map_zero, mul_zero]
    show ((mean M _ : ℝ) : ℂ) = ((mean M _ : ℝ) : ℂ) * ((mean M _ : ℝ) : ℂ)
    rw [← List.map_append, mean_independent M hout hI hs e f, Complex.ofReal_mul]
    intro a ha b hb
    exact h (a.1 + 1) (List.mem_map.2 ⟨a, ha, rfl⟩) (b.1 + 1) (List.mem_map.2 ⟨b, hb, rfl⟩) _ _ (sdpLexorder_succ a) (sdpLexorder_succ b)

end

end Verif.SdpEnd

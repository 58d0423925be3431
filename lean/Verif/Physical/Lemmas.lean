import Verif.Physical.Model
import Verif.Physical.Spec
import Verif.CollinsGisin.ProblemLemmas
/-!
Measurements of operators, and the operators of the vectors generated from measurements.
-/
namespace Verif.Physical
open Verif.Common Verif.Scenario Verif.SdpEnd Verif.CollinsGisin Verif.Cliques
open Verif.Orbits (flatnonzero boolKey)
open Verif.Columns (Allowed partyOf)
open Verif.EndToEnd (Input)

variable {I : Input}

/-- Every party has at least one outcome. -/
def HasOutcomes (I : Input) : Prop := ∀ p, p < I.scenario.nParties → 1 ≤ I.scenario.outcomes p

theorem blocksOk (hout : HasOutcomes I) : BlocksOk I.scenario.lexorder.length (blocksOf (measurements I)) := blocksOk_groupsOf I.scenario hout _ _

/-- The number of the measurement of an operator. -/
def idx (I : Input) (r : Nat) : Nat := blockIdx (blocksOf (measurements I)) r

theorem measurement (hout : HasOutcomes I) {r : Nat} (hr : r < I.scenario.lexorder.length) :
    I.scenario.measKeys[idx I r]? = some I.scenario.lexorder[r].key := by
  obtain ⟨b, hb, hrb⟩ := (blocksOk hout).mem_blockIdx hr
  have hb' : (blocksOf (measurements I))[idx I r]? = some b := hb
  generalize idx I r = i at hb' ⊢
  unfold blocksOf measurements at hb'
  rw [groupsOf_eq, List.map_map, List.getElem?_map, Option.map_eq_some_iff] at hb'
  obtain ⟨k, hk, rfl⟩ := hb'
  obtain ⟨op, hop, e⟩ := List.mem_map.1 hrb
  have hm := mem_lex_of_group I.scenario (List.mem_of_getElem? hk) hop
  have : I.scenario.lexorder[r] = op := by
    subst e
    exact List.getElem_idxOf _
  rw [hk, this, key_of_mem_orthoGroup _ hop]

theorem outcomes_pos (hout : HasOutcomes I) {r : Nat} (hr : r < I.scenario.lexorder.length) : 1 ≤ I.scenario.outcomes (I.scenario.lexorder[r].key.1 - 1) := by
  have := (mem_measKeys I.scenario).1 (List.mem_of_getElem? (measurement hout hr))
  exact hout _ (by omega)

theorem idx_eq_iff (hout : HasOutcomes I) {r s : Nat} (hr : r < I.scenario.lexorder.length) (hs : s < I.scenario.lexorder.length) :
    idx I r = idx I s ↔ I.scenario.lexorder[r].key = I.scenario.lexorder[s].key := by
  have h1 := measurement hout hr
  have h2 := measurement hout hs
  constructor
  · intro e
    rw [e, h2] at h1
    exact (Option.some.inj h1).symm
  · intro e
    rw [e, ← h2] at h1
    exact List.getElem?_inj (List.getElem?_eq_some_iff.1 (measurement hout hr)).1 (nodup_measKeys I.scenario) |>.1 h1

theorem adj_eq (hout : HasOutcomes I) {r s : Nat} (hr : r < I.scenario.lexorder.length) (hs : s < I.scenario.lexorder.length) (hne : idx I r ≠ idx I s) :
    templateAdj I.scenario I.D I.anyNonclassical (idx I r) (idx I s) = !(notcomm I (r + 1) (s + 1)) := by
  rw [templateAdj_eq I.scenario I.D I.anyNonclassical (measurement hout hr) (measurement hout hs) (outcomes_pos hout hr) (outcomes_pos hout hs)]
  have hrs : r ≠ s := fun e => hne (by rw [e])
  have hk : I.scenario.lexorder[r].key ≠ I.scenario.lexorder[s].key := fun e => hne ((idx_eq_iff hout hr hs).2 e)
  have hc := (C06_matrix I.D I.scenario.lexorder).2.2 r s _ _ hrs (List.getElem?_eq_getElem hr) (List.getElem?_eq_getElem hs)
  unfold notcomm padMat Scenario.notcomm
  cases I.anyNonclassical with
  | false => simp
  | true =>
    simp only [Bool.true_and, hk, ne_eq, not_false_eq_true, decide_true, Nat.zero_lt_succ, Nat.add_sub_cancel, if_true]
    rw [hc]
    rfl

theorem ortho_eq (hout : HasOutcomes I) {r s : Nat} (hr : r < I.scenario.lexorder.length) (hs : s < I.scenario.lexorder.length) (hne : r ≠ s) :
    orthomat I (r + 1) (s + 1) = true ↔ idx I r = idx I s := by
  rw [idx_eq_iff hout hr hs, ← measIdx_eq_iff I.scenario hr hs]
  have := (scenario_operatorList I.scenario I.D.tbl I.anyNonclassical).ortho_iff (r + 1) (s + 1) (by omega) (by omega)
  unfold orthomat
  rw [this]
  unfold sdpMeas
  simp [hne]

theorem party_eq (hout : HasOutcomes I) {r : Nat} (hr : r < I.scenario.lexorder.length) : templateParty I.scenario (idx I r) = I.scenario.lexorder[r].party := by
  unfold templateParty
  rw [templateRank I.scenario (measurement hout hr) (outcomes_pos hout hr)]
  have hm : (⟨I.scenario.lexorder[r].key.1, I.scenario.lexorder[r].key.2.1, I.scenario.lexorder[r].key.2.2, 0⟩ : Op) ∈ I.scenario.lexorder :=
    mem_lex_of_group I.scenario (List.mem_of_getElem? (measurement hout hr)) (List.mem_map.2 ⟨0, List.mem_range.2 (outcomes_pos hout hr), rfl⟩)
  rw [List.getElem?_eq_getElem (List.idxOf_lt_length_iff.2 hm), List.getElem_idxOf]
  rfl

theorem party_pos (hout : HasOutcomes I) {r : Nat} (hr : r < I.scenario.lexorder.length) : 1 ≤ I.scenario.lexorder[r].party :=
  ((mem_measKeys I.scenario).1 (List.mem_of_getElem? (measurement hout hr))).1

theorem partyOf_eq {r : Nat} (hr : r < I.scenario.lexorder.length) : partyOf I.scenario (r + 1) = I.scenario.lexorder[r].party - 1 := by
  unfold partyOf Scenario.sdpLexorder
  rw [List.getElem?_cons_succ, List.getElem?_eq_getElem hr]
  rfl

/-- The outcomes of a measurement that appear in columns. -/
theorem cg_iff (hout : HasOutcomes I) {r : Nat} (hr : r < I.scenario.lexorder.length) :
    r ∈ (cgLists (measurements I)).getD (idx I r) [] ↔ ∃ p, Allowed I.scenario (cardinalities I) p (r + 1) := by
  have hk := measurement hout hr
  have hg : (measurements I)[idx I r]? = some (effChildren I.hasChildren I.allOutcomes (I.scenario.lexorder[r].key.1 - 1), blockOf I.scenario I.scenario.lexorder[r].key) := by
    unfold measurements
    rw [groupsOf_eq, List.getElem?_map, hk]
    rfl
  have hL : (cgLists (measurements I)).getD (idx I r) [] = if effChildren I.hasChildren I.allOutcomes (I.scenario.lexorder[r].key.1 - 1) then blockOf I.scenario I.scenario.lexorder[r].key
      else (blockOf I.scenario I.scenario.lexorder[r].key).dropLast := by
    unfold cgLists
    rw [List.getD_eq_getElem?_getD, List.getElem?_map, hg]
    rfl
  have hmem : I.scenario.lexorder[r] ∈ I.scenario.lexorder := List.getElem_mem hr
  have hv := (mem_lexorder I.scenario).1 hmem
  have hlt : I.scenario.lexorder[r].outcome < I.scenario.outcomes (I.scenario.lexorder[r].party - 1) := hv.outcome_lt
  have hri : I.scenario.lexorder.idxOf I.scenario.lexorder[r] = r := (lexorder_nodup I.scenario).idxOf_getElem _ hr
  have hall : (∃ p, Allowed I.scenario (cardinalities I) p (r + 1)) ↔ I.scenario.lexorder[r].outcome + 1 ≠ cardinalities I (I.scenario.lexorder[r].party - 1) := by
    have hp := party_pos hout hr
    unfold Columns.Allowed Scenario.sdpLexorder
    rw [List.getElem?_cons_succ, List.getElem?_eq_getElem hr]
    constructor
    · rintro ⟨p, o, e, h1, h2⟩
      rw [Option.some.inj e]
      rw [show o.party - 1 = p by omega]
      exact h2
    · intro h
      exact ⟨_, _, rfl, by omega, h⟩
  have hbl : ∀ d, r ∈ (List.range d).map (fun o => I.scenario.lexorder.idxOf (⟨I.scenario.lexorder[r].party, I.scenario.lexorder[r].copies, I.scenario.lexorder[r].setting, o⟩ : Op)) ↔
      I.scenario.lexorder[r].outcome < d := by
    intro d
    rw [List.mem_map]
    constructor
    · rintro ⟨o, ho, e⟩
      have e : I.scenario.lexorder.idxOf (⟨I.scenario.lexorder[r].party, I.scenario.lexorder[r].copies, I.scenario.lexorder[r].setting, o⟩ : Op) = I.scenario.lexorder.idxOf I.scenario.lexorder[r] := by rw [hri]; exact e
      have := (List.idxOf_inj hmem).1 e.symm
      rw [this]
      exact List.mem_range.1 ho
    · intro h
      exact ⟨_, List.mem_range.2 h, hri⟩
  rw [hL, hall]
  have hb : blockOf I.scenario I.scenario.lexorder[r].key = (List.range (I.scenario.outcomes (I.scenario.lexorder[r].party - 1))).map
      (fun o => I.scenario.lexorder.idxOf (⟨I.scenario.lexorder[r].party, I.scenario.lexorder[r].copies, I.scenario.lexorder[r].setting, o⟩ : Op)) := by
    unfold blockOf Scenario.orthoGroup
    rw [List.map_map]
    rfl
  have hcard : cardinalities I (I.scenario.lexorder[r].party - 1) = I.scenario.outcomes (I.scenario.lexorder[r].party - 1) +
      if effChildren I.hasChildren I.allOutcomes (I.scenario.lexorder[r].key.1 - 1) then 1 else 0 := by
    unfold cardinalities withChildren effChildren
    rw [Bool.or_comm]
    rfl
  rw [hb, hcard]
  cases effChildren I.hasChildren I.allOutcomes (I.scenario.lexorder[r].key.1 - 1) with
  | true =>
    simp only [if_true]
    rw [hbl]
    omega
  | false =>
    simp only [Bool.false_eq_true, if_false]
    obtain ⟨d, hd⟩ : ∃ d, I.scenario.outcomes (I.scenario.lexorder[r].party - 1) = d + 1 := ⟨I.scenario.outcomes (I.scenario.lexorder[r].party - 1) - 1, by omega⟩
    rw [hd, List.range_succ, List.map_append, List.map_singleton, List.dropLast_concat, hbl]
    omega

end Verif.Physical

import Verif.QuantumNet.Spec
import Verif.Theory.Quantum
/-!
The inflation of a quantum network: all copies of a source prepare the same state independently, all copies of a party perform the same measurements.
-/
set_option linter.unusedSectionVars false

namespace Verif.QuantumNet
open Verif.Common Verif.Scenario Verif.Components Verif.Normalization Verif.SdpEnd Verif.Theory
open Verif.EndToEnd (Input)
open Verif.Symmetry (Relabelling inducedRow padRow img sdpSymmetries)

variable {I : Input} {A : Type} [Fintype A] [DecidableEq A]

/-- The copies of the sources in the inflated network. -/
abbrev Block (I : Input) : Type := Σ s : Fin I.scenario.nSources, Fin (max (I.scenario.level s) 1)

/-- The systems of the inflated network. -/
abbrev Slot (I : Input) : Type := Σ b : Block I, Receivers I b.1

/-- The copy (counted from 0) of a source an operator acts on. -/
def copyOf (I : Input) (op : Op) (s : Fin I.scenario.nSources) : Fin (max (I.scenario.level s) 1) :=
  ⟨(op.copies.getD s 0 - 1) % max (I.scenario.level s) 1, Nat.mod_lt _ (by omega)⟩

/-- The systems on which a copy of a party acts. -/
def slots (p : Fin I.scenario.nParties) (c : ∀ s : Fin I.scenario.nSources, Fin (max (I.scenario.level s) 1)) : Received I p → Slot I := fun s => ⟨⟨s.1, c s.1⟩, ⟨p, s.2⟩⟩

theorem slots_injective (p : Fin I.scenario.nParties) (c : ∀ s : Fin I.scenario.nSources, Fin (max (I.scenario.level s) 1)) : Function.Injective (slots p c) := by
  intro s t h
  have : (slots p c s).1.1 = (slots p c t).1.1 := by rw [h]
  exact Subtype.ext this

/-- The operators of the inflated network. -/
noncomputable def opAt (N : QuantumNetwork I A) (op : Op) : Operator (Slot I) A :=
  if h : op.party - 1 < I.scenario.nParties then
    match decodeSetting (I.dims (op.party - 1)) op.setting with
    | some (x :: y) => lift (slots ⟨op.party - 1, h⟩ (copyOf I op)) (N.effect (op.party - 1) x y op.outcome)
    | _ => 0
  else 0

/-- The operators of the inflated network by their number in the list of the SDP. -/
noncomputable def opRank (N : QuantumNetwork I A) (r : Nat) : Operator (Slot I) A :=
  if r = 0 then 0 else (I.scenario.lexorder[r - 1]?.map (opAt N)).getD 0

/-- The state of the inflated network. -/
noncomputable def inflatedState (N : QuantumNetwork I A) : Operator (Slot I) A := tensor fun b : Block I => N.state b.1

variable (N : QuantumNetwork I A)

theorem opRank_succ (r : Nat) (h : r < I.scenario.lexorder.length) : opRank N (r + 1) = opAt N I.scenario.lexorder[r] := by
  unfold opRank
  rw [if_neg (by omega), Nat.add_sub_cancel, List.getElem?_eq_getElem h]
  rfl

theorem opRank_sdpRank {x : Op} (h : Valid I.scenario x) : opRank N (sdpRank I x) = opAt N x := by
  have hi := List.idxOf_lt_length_iff.2 ((mem_lexorder I.scenario).2 h)
  unfold sdpRank
  rw [opRank_succ N _ hi, List.getElem_idxOf]

theorem opRank_out {r : Nat} (h : nOps I ≤ r) : opRank N r = 0 := by
  unfold nOps at h
  unfold opRank
  rw [if_neg (by omega), List.getElem?_eq_none (by omega)]
  rfl

theorem opAt_valid (hI : I.Accepted) {op : Op} (h : Valid I.scenario op) : ∃ (p : Fin I.scenario.nParties) (x : Nat) (y : List Nat), p.1 = op.party - 1 ∧
    decodeSetting (I.dims p) op.setting = some (x :: y) ∧ x < I.observed.priv p ∧ y ∈ ndindex ((I.observed.parents p).map I.scenario.outcomes) ∧
    ∀ a, opAt N { op with outcome := a } = lift (slots p (copyOf I op)) (N.effect p x y a) := by
  have hp : op.party - 1 < I.scenario.nParties := by have := h.party_pos; have := h.party_le; omega
  obtain ⟨x, y, hd, hx, hy⟩ := EndToEnd.ClassicalModel.decode_some hI.ok h
  refine ⟨⟨op.party - 1, hp⟩, x, y, rfl, hd, hx, hy, fun a => ?_⟩
  unfold opAt
  dsimp only
  have hd' : decodeSetting (I.dims (op.party - 1)) op.setting = some (x :: y) := hd
  rw [dif_pos hp, hd']
  rfl

theorem opAt_projector (op : Op) : opAt N op * opAt N op = opAt N op ∧ star (opAt N op) = opAt N op := by
  unfold opAt
  split
  · split
    · rw [mul_same (slots_injective _ _), (N.effect_projector _ _ _ _).1, ← lift_star]
      exact ⟨rfl, by rw [Matrix.star_eq_conjTranspose, (N.effect_projector _ _ _ _).2]⟩
    · simp
  · simp

theorem level_copy {op : Op} (h : Valid I.scenario op) {s : Fin I.scenario.nSources} (hs : I.scenario.hyp s (op.party - 1) = true) :
    op.copies[s.1]? = some ((copyOf I op s).1 + 1) := by
  have hl : s.1 < op.copies.length := by rw [h.copies_len]; exact s.2
  have := h.copies_ok s.1 hl
  rw [if_pos hs] at this
  rw [List.getElem?_eq_getElem hl]
  congr 1
  unfold copyOf
  dsimp only
  rw [List.getD_eq_getElem _ _ hl, Nat.mod_eq_of_lt (by omega)]
  omega

theorem linked_of_hyp {s : Fin I.scenario.nSources} {p : Nat} (h : I.scenario.hyp s p = true) : Linked I.D (I.D.sources.getD s 0) p p := by
  have : (I.D.hypRow (I.D.sources.getD s 0) p == 1) = true := h
  exact (C45_dag_tables I.D _ p p).2.2.2.1.1 (beq_iff_eq.1 this)

theorem source_get (s : Fin I.scenario.nSources) : I.D.sources[s.1]? = some (I.D.sources.getD s 0) := by
  have : s.1 < I.D.sources.length := s.2
  rw [List.getElem?_eq_getElem this, List.getD_eq_getElem _ _ this]

theorem mem_slots {p : Fin I.scenario.nParties} {c : ∀ s : Fin I.scenario.nSources, Fin (max (I.scenario.level s) 1)} {t : Slot I} :
    t ∈ Set.range (slots p c) → t.2.1 = p ∧ t.1.2 = c t.1.1 := by
  rintro ⟨k, rfl⟩
  exact ⟨rfl, rfl⟩

/-- Compatible operators commute. -/
theorem opAt_commute (hI : I.Accepted) {a b : Op} (ha : Valid I.scenario a) (hb : Valid I.scenario b) (h : ¬ Incompatible I.D a b) : opAt N a * opAt N b = opAt N b * opAt N a := by
  obtain ⟨p, x, y, hp, hd, _, _, ea⟩ := opAt_valid N hI ha
  obtain ⟨q, x', y', hq, hd', _, _, eb⟩ := opAt_valid N hI hb
  have ea := ea a.outcome
  have eb := eb b.outcome
  rw [show ({ a with outcome := a.outcome } : Op) = a from rfl] at ea
  rw [show ({ b with outcome := b.outcome } : Op) = b from rfl] at eb
  rw [ea, eb]
  by_cases hpq : p = q
  swap
  · apply commute_apart
    · intro k hk
      exact absurd (mem_slots hk).1 hpq
    · intro k hk
      exact absurd (mem_slots hk).1.symm hpq
  subst hpq
  have hparty : a.party = b.party := by have := ha.party_pos; have := hb.party_pos; omega
  by_cases hshare : ∃ s : Received I p, QuantumLinked I.D (I.D.sources.getD s.1 0) p p ∧ copyOf I a s.1 = copyOf I b s.1
  · obtain ⟨s, hql, hc⟩ := hshare
    have hsp : ∀ s : Received I p, I.scenario.hyp s.1 (a.party - 1) = true ∧ I.scenario.hyp s.1 (b.party - 1) = true := fun s => ⟨hp ▸ s.2, hq ▸ s.2⟩
    have hq1 : ∃ s src c : Nat, I.D.sources[s]? = some src ∧ QuantumLinked I.D src (a.party - 1) (b.party - 1) ∧ a.copies[s]? = some c ∧ b.copies[s]? = some c :=
      ⟨s.1.1, _, _, source_get s.1, by rw [← hp, ← hq]; exact hql, level_copy ha (hsp s).1, by rw [level_copy hb (hsp s).2, hc]⟩
    have hsame : slots p (copyOf I a) = slots p (copyOf I b) := by
      funext t
      have : copyOf I a t.1 = copyOf I b t.1 := by
        by_contra hne
        refine h ⟨hq1, .inl ⟨t.1.1, _, _, _, source_get t.1, by rw [← hp, ← hq]; exact linked_of_hyp t.2, level_copy ha (hsp t).1, level_copy hb (hsp t).2, ?_⟩⟩
        intro e
        exact hne (Fin.ext (by omega))
      unfold slots
      rw [this]
    have hset : a.setting = b.setting := by
      by_contra hne
      exact h ⟨hq1, .inr ⟨hparty, hne⟩⟩
    rw [hset, hd'] at hd
    obtain ⟨rfl, rfl⟩ := List.cons.inj (Option.some.inj hd)
    rw [hsame, mul_same (slots_injective _ _), mul_same (slots_injective _ _)]
    by_cases ho : a.outcome = b.outcome
    · rw [ho]
    · rw [N.effect_orthogonal _ _ _ _ _ ho, N.effect_orthogonal _ _ _ _ _ (Ne.symm ho)]
  · push Not at hshare
    apply commute_apart
    · intro k hk
      apply N.effect_classical
      intro hql
      exact hshare k hql (mem_slots hk).2
    · intro k hk
      apply N.effect_classical
      intro hql
      exact hshare k hql (mem_slots hk).2.symm

theorem not_incompatible {a b : Nat} (h : notcomm I (a + 1) (b + 1) = false) (ha : a < I.scenario.lexorder.length) (hb : b < I.scenario.lexorder.length) :
    ¬ Incompatible I.D I.scenario.lexorder[a] I.scenario.lexorder[b] := by
  intro hinc
  have hany : I.anyNonclassical = true := by
    by_contra hc
    exact commute_classical (Bool.eq_false_iff.2 hc) _ _ hinc
  have hne : a ≠ b := by
    rintro rfl
    obtain ⟨_, h2⟩ := hinc
    rcases h2 with ⟨s, _, c, d, _, _, h3, h4, h5⟩ | ⟨_, h3⟩
    · rw [h3] at h4; exact h5 (Option.some.inj h4)
    · exact h3 rfl
  unfold notcomm padMat Scenario.notcomm at h
  rw [hany, if_pos rfl] at h
  simp only [commutationMatrix, Nat.add_sub_cancel, Bool.false_eq_true, if_false, List.getElem?_eq_getElem ha, List.getElem?_eq_getElem hb] at h
  have h1 := (incompatible_iff _ _ _).1 hinc
  have h2 := (incompatible_iff _ _ _).1 (incompatible_symm hinc)
  rw [h1, h2] at h
  simp at h
  omega

theorem operators_model (hI : I.Accepted) : Normalization.Model (nOps I) (notcomm I) (orthomat I) (opRank N) := by
  refine ⟨?_, by unfold opRank; rw [if_pos rfl], ?_, ?_⟩
  · intro a
    unfold opRank
    split
    · simp
    · rcases h : I.scenario.lexorder[a - 1]? with _ | x
      · simp
      · exact opAt_projector N x
  · intro a b ha hb h
    rcases Nat.eq_zero_or_pos a with rfl | hpa
    · rw [show opRank N 0 = 0 by unfold opRank; rw [if_pos rfl], zero_mul, mul_zero]
    rcases Nat.eq_zero_or_pos b with rfl | hpb
    · rw [show opRank N 0 = 0 by unfold opRank; rw [if_pos rfl], zero_mul, mul_zero]
    obtain ⟨a, rfl⟩ := Nat.exists_eq_succ_of_ne_zero (by omega : a ≠ 0)
    obtain ⟨b, rfl⟩ := Nat.exists_eq_succ_of_ne_zero (by omega : b ≠ 0)
    unfold nOps at ha hb
    have hla : a < I.scenario.lexorder.length := by omega
    have hlb : b < I.scenario.lexorder.length := by omega
    show opRank N (a + 1) * opRank N (b + 1) = opRank N (b + 1) * opRank N (a + 1)
    rw [opRank_succ N a hla, opRank_succ N b hlb]
    exact opAt_commute N hI (Verif.Symmetry.lex_valid I.scenario hla) (Verif.Symmetry.lex_valid I.scenario hlb) (not_incompatible h hla hlb)
  · intro a b ha hb h
    have h0 : opRank N 0 = 0 := by unfold opRank; rw [if_pos rfl]
    rcases ((operatorList I).ortho_iff a b ha hb).1 h with rfl | rfl | ⟨h1, h2⟩
    · rw [h0, zero_mul]
    · rw [h0, mul_zero]
    · rcases Nat.eq_zero_or_pos a with rfl | hpa
      · rw [h0, zero_mul]
      rcases Nat.eq_zero_or_pos b with rfl | hpb
      · rw [h0, mul_zero]
      unfold nOps at ha hb
      obtain ⟨a, rfl⟩ := Nat.exists_eq_succ_of_ne_zero (by omega : a ≠ 0)
      obtain ⟨b, rfl⟩ := Nat.exists_eq_succ_of_ne_zero (by omega : b ≠ 0)
      have hla : a < I.scenario.lexorder.length := by omega
      have hlb : b < I.scenario.lexorder.length := by omega
      have hk : I.scenario.lexorder[a].key = I.scenario.lexorder[b].key := (measIdx_eq_iff I.scenario hla hlb).1 h2
      show opRank N (a + 1) * opRank N (b + 1) = 0
      rw [opRank_succ N a hla, opRank_succ N b hlb]
      obtain ⟨p, x, y, _, _, _, _, e⟩ := opAt_valid N hI (Verif.Symmetry.lex_valid I.scenario hla)
      have e1 := e I.scenario.lexorder[a].outcome
      have e2 := e I.scenario.lexorder[b].outcome
      rw [show ({ I.scenario.lexorder[a] with outcome := I.scenario.lexorder[a].outcome } : Op) = I.scenario.lexorder[a] from rfl] at e1
      have hb' : ({ I.scenario.lexorder[a] with outcome := I.scenario.lexorder[b].outcome } : Op) = I.scenario.lexorder[b] := by
        have k1 : I.scenario.lexorder[a].party = I.scenario.lexorder[b].party := congrArg (·.1) hk
        have k2 : I.scenario.lexorder[a].copies = I.scenario.lexorder[b].copies := congrArg (·.2.1) hk
        have k3 : I.scenario.lexorder[a].setting = I.scenario.lexorder[b].setting := congrArg (·.2.2) hk
        dsimp only
        rw [k1, k2, k3]
      rw [hb'] at e2
      rw [e1, e2, mul_same (slots_injective _ _), N.effect_orthogonal, lift_zero]
      intro ho
      have : I.scenario.lexorder[a] = I.scenario.lexorder[b] := by rw [← hb', ← ho]
      have := (lexorder_nodup I.scenario).getElem_inj_iff.1 this
      omega

theorem operators_complete (hI : I.Accepted) : Complete (scenarioGroups I.scenario) (opRank N) := by
  intro g hg
  obtain ⟨gr, hgr, rfl⟩ := List.mem_map.1 hg
  obtain ⟨k, hk, rfl⟩ := List.mem_map.1 hgr
  have hk' := (mem_measKeys I.scenario).1 hk
  have hout : 1 ≤ I.scenario.outcomes (k.1 - 1) := outcomes_one hI _ (by omega)
  have hv0 : Valid I.scenario ⟨k.1, k.2.1, k.2.2, 0⟩ := (mem_lexorder _).1 (CollinsGisin.mem_lex_of_group I.scenario hk (List.mem_map.2 ⟨0, List.mem_range.2 hout, rfl⟩))
  obtain ⟨p, x, y, hp, _, hx, hy, e⟩ := opAt_valid N hI hv0
  have : (((I.scenario.orthoGroup k).map fun op => I.scenario.lexorder.idxOf op + 1).map (opRank N)) =
      (List.range (I.scenario.outcomes p)).map fun a => lift (slots p (copyOf I ⟨k.1, k.2.1, k.2.2, 0⟩)) (N.effect p x y a) := by
    unfold Scenario.orthoGroup
    have hpo : I.scenario.outcomes p = I.scenario.outcomes (k.1 - 1) := congrArg _ hp
    rw [List.map_map, List.map_map, hpo]
    apply List.map_congr_left
    intro o ho
    have hm : (⟨k.1, k.2.1, k.2.2, o⟩ : Op) ∈ I.scenario.lexorder := CollinsGisin.mem_lex_of_group I.scenario hk (List.mem_map.2 ⟨o, ho, rfl⟩)
    have h1 := opRank_sdpRank N ((mem_lexorder _).1 hm)
    exact h1.trans (e o)
  rw [this, ← lift_listSum, N.effect_complete p p.2 x hx y hy, lift_one]

end Verif.QuantumNet

import Verif.EndToEnd.Columns
import Verif.EndToEnd.Original
import Verif.Knowable.Props
import Verif.Marginal.Props
import Verif.EndToEnd.Inflated
/-!
The values which `set_distribution` computes are the probabilities that the model gives to the atoms.
-/
namespace Verif.EndToEnd
open Verif.Common Verif.Scenario Verif.Orbits Verif.Components Verif.Moment Verif.State Verif.CollinsGisin
open Verif.Knowable (rowsOf rectify atomicKnowable isKnowable oneCopyPerSource)

/-- The arguments describe a causal structure: cardinalities for every party, at least one party, positive cardinalities, no directed cycle among the parties. (The code
checks the first; a cyclic structure is accepted but has no models.) -/
structure Input.Accepted (I : Input) : Prop where
  outcomes_length : I.outcomes.length = I.D.names.length
  priv_length : I.priv.length = I.D.names.length
  parties : I.D.names ≠ []
  outcomes_pos : ∀ d ∈ I.outcomes, 0 < d
  priv_pos : ∀ d ∈ I.priv, 0 < d
  acyclic : ∃ rank : Nat → Nat, ∀ p < I.D.names.length, ∀ q ∈ I.parents p, rank q < rank p

theorem range_map_getD {l : List Nat} {n : Nat} (h : l.length = n) : ((List.range n).map fun p => l.getD p 0) = l := by
  subst h
  apply List.ext_getElem
  · simp
  · intro i h1 h2
    rw [List.getElem_map, List.getElem_range, List.getD_eq_getElem _ _ h2]

variable {I : Input}

theorem Input.Accepted.outs_eq (h : I.Accepted) : outs I.scenario = I.outcomes := range_map_getD h.outcomes_length

theorem Input.Accepted.ins_eq (h : I.Accepted) : ins I.scenario I.observed = I.priv := range_map_getD h.priv_length

theorem parents_lt {p q : Nat} (h : q ∈ I.parents p) : q < I.D.names.length := by
  unfold Input.parents at h
  rw [List.mem_filter, List.mem_range] at h
  exact h.1

theorem Input.Accepted.ok (h : I.Accepted) : I.observed.Ok I.scenario where
  acyclic := by
    obtain ⟨rank, hr⟩ := h.acyclic
    exact ⟨rank, fun p hp q hq => ⟨parents_lt hq, hr p hp q hq⟩⟩
  priv_pos := by
    intro p hp
    have hp' : p < I.priv.length := by rw [h.priv_length]; exact hp
    show 0 < I.priv.getD p 0
    rw [List.getD_eq_getElem _ _ hp']
    exact h.priv_pos _ (List.getElem_mem _)
  settings := fun _ _ => rfl

theorem Input.Accepted.out_pos (h : I.Accepted) : ∀ p, p < I.scenario.nParties → 1 ≤ I.scenario.outcomes p := by
  intro p hp
  have hp' : p < I.outcomes.length := by rw [h.outcomes_length]; exact hp
  show 1 ≤ I.outcomes.getD p 0
  rw [List.getD_eq_getElem _ _ hp']
  exact h.outcomes_pos _ (List.getElem_mem _)

theorem network_parents (h : I.isNetwork = true) (p : Nat) : I.parents p = [] := by
  unfold Input.parents
  rw [List.filter_eq_nil_iff]
  intro q hq hc
  rw [List.mem_range] at hq
  rw [Bool.and_eq_true] at hc
  unfold Input.isNetwork at h
  rw [List.all_eq_true] at h
  have h1 := hc.1
  unfold Input.hasChildren at h1
  rw [List.contains_iff_mem] at h1
  have h2 := h _ h1
  unfold Input.nameOf at h2
  rw [List.getD_eq_getElem _ _ hq] at h2
  simp at h2

/-- The operators are listed party by party. -/
theorem lexorder_parties (S : Scenario) : S.lexorder.Pairwise fun a b => a.party ≤ b.party := by
  rw [lexorder_eq]
  unfold Scenario.measKeys
  rw [List.flatMap_assoc, List.pairwise_flatMap]
  have hin : ∀ p, ∀ op ∈ ((S.inflationIndices p).flatMap fun I => (List.range (S.settings p)).map fun s => (p + 1, I, s)).flatMap S.orthoGroup, op.party = p + 1 := by
    intro p op h
    obtain ⟨k, hk, ho⟩ := List.mem_flatMap.1 h
    obtain ⟨J, _, hJ⟩ := List.mem_flatMap.1 hk
    obtain ⟨s, _, rfl⟩ := List.mem_map.1 hJ
    unfold Scenario.orthoGroup at ho
    obtain ⟨o, _, rfl⟩ := List.mem_map.1 ho
    rfl
  refine ⟨?_, ?_⟩
  · intro p _
    rw [List.pairwise_iff_getElem]
    intro i j hi hj _
    rw [hin p _ (List.getElem_mem hi), hin p _ (List.getElem_mem hj)]
  · apply List.pairwise_lt_range.imp
    intro p q hpq a ha b hb
    rw [hin p a ha, hin q b hb]
    omega

theorem operators_spec {a : Atom} (ha : ∀ x ∈ a, x < I.scenario.lexorder.length) :
    a.map (I.scenario.lexorder[·]?) = (I.operators a).map some := by
  unfold Input.operators
  induction a with
  | nil => rfl
  | cons r a ih =>
    have hr := ha r (List.mem_cons_self ..)
    rw [List.map_cons, ih fun x hx => ha x (List.mem_cons_of_mem _ hx), List.filterMap_cons_some (List.getElem?_eq_getElem hr), List.map_cons,
      List.getElem?_eq_getElem hr]

theorem operators_valid (a : Atom) : ∀ op ∈ I.operators a, Valid I.scenario op := by
  intro op hop
  unfold Input.operators at hop
  obtain ⟨r, _, hr⟩ := List.mem_filterMap.1 hop
  exact (mem_lexorder _).1 (List.mem_of_getElem? hr)

theorem operators_parties {a : Atom} (ha : GoodRanks I.scenario a) : (I.operators a).Pairwise fun s t => s.party ≤ t.party := by
  unfold Input.operators
  rw [List.pairwise_filterMap]
  apply ha.sorted.imp
  intro i j hij op h1 op' h2
  obtain ⟨hi, rfl⟩ := List.getElem?_eq_some_iff.1 h1
  obtain ⟨hj, rfl⟩ := List.getElem?_eq_some_iff.1 h2
  exact (List.pairwise_iff_getElem.1 (lexorder_parties I.scenario)) i j hi hj hij

/-- What it means that an atom of the program is flagged knowable. -/
theorem knowable_event (hI : I.Accepted) {a : Atom} (ha : GoodRanks I.scenario a) (hk : I.knowable a = true) :
    oneCopyPerSource I.scenario.nSources (I.operators a) = true ∧ ((I.operators a).map (·.party)).Nodup ∧
      ∃ x o, Knowable.IsEvent I.parents I.dims x o (I.operators a) := by
  have hval := operators_valid (I := I) a
  unfold Input.knowable at hk
  rw [Bool.or_eq_true] at hk
  have hne : a.isEmpty = false := by simpa using ha.ne
  rw [hne] at hk
  simp only [Bool.false_eq_true, false_or, Bool.and_eq_true, beq_iff_eq] at hk
  obtain ⟨hnd, hrel, hev⟩ := (Knowable.C20_atomic_knowable_iff I.scenario I.isNetwork I.parents (fun p => I.priv.getD p 0) I.dims (fun _ => rfl) (fun _ _ => rfl)
    (I.operators a) hval).2.1 hk.2
  refine ⟨?_, hnd, ?_⟩
  · rw [Knowable.oneCopy_iff, Knowable.firstCopies_iff hval]
    exact hrel
  · rcases hev with hnet | h
    · have hpar := network_parents hnet
      let pick (p : Nat) : Option Op := (I.operators a).find? fun op => op.party - 1 == p
      have hpick : ∀ op ∈ I.operators a, pick (op.party - 1) = some op := by
        intro op hop
        rcases hf : (I.operators a).find? (fun op' => op'.party - 1 == op.party - 1) with _ | op'
        · rw [List.find?_eq_none] at hf
          exact absurd (beq_self_eq_true _) (hf op hop)
        · show (I.operators a).find? _ = _
          rw [hf]
          have h1 := List.find?_some hf
          have h2 := List.mem_of_find?_eq_some hf
          have h3 : op'.party = op.party := by
            have := (hval op hop).party_pos
            have := (hval op' h2).party_pos
            have h4 : op'.party - 1 = op.party - 1 := by simpa using h1
            omega
          have := List.inj_on_of_nodup_map hnd h2 hop h3
          rw [this]
      refine ⟨fun p => match pick p with | some op => ((decodeSetting (I.dims p) op.setting).getD []).headD 0 | none => 0,
        fun p => match pick p with | some op => op.outcome | none => 0, ?_, ?_, ?_⟩
      · intro op _ q hq
        rw [hpar] at hq
        simp at hq
      · intro op hop
        show op.outcome = match pick (op.party - 1) with | some op => op.outcome | none => 0
        rw [hpick op hop]
      · intro op hop
        rw [hpar]
        obtain ⟨x, y, h1, _, h3⟩ := ClassicalModel.decode_some hI.ok (hval op hop)
        have hd : I.observed.dims I.scenario (op.party - 1) = I.dims (op.party - 1) := rfl
        rw [hd] at h1
        have hy : y = [] := by
          have : I.observed.parents (op.party - 1) = [] := hpar _
          rw [this] at h3
          simpa [ndindex] using h3
        subst hy
        show _ = some ((match pick (op.party - 1) with | some op' => ((decodeSetting (I.dims (op.party - 1)) op'.setting).getD []).headD 0 | none => 0) :: _)
        rw [hpick op hop, h1]
        simp [h1]
    · exact h

variable {Λ F : Type} [Fintype Λ] [Field F] [LinearOrder F] [IsStrictOrderedRing F]

/-- The rational array `P` is the distribution of the model. -/
def Input.Realises (I : Input) (M : ClassicalModel I.scenario I.observed Λ F) (P : List Nat → Rat) : Prop := M.Generates fun t => ((P t : Rat) : F)

theorem atomMarginal_sound (hI : I.Accepted) (M : ClassicalModel I.scenario I.observed Λ F) {P : List Nat → Rat} (hP : I.Realises M P) {a : Atom}
    (ha : GoodRanks I.scenario a) (hk : I.knowable a = true) : ∃ v, I.atomMarginal P a = some v ∧ (v : F) = M.event a := by
  obtain ⟨hone, hnd, x, o, hev⟩ := knowable_event hI ha hk
  have hval := operators_valid (I := I) a
  have hspec := operators_spec (I := I) ha.lt
  have hrect := Knowable.C20_rectified I.parents I.dims x o _ hev
  have hne : a.isEmpty = false := by simpa using ha.ne
  have hrec : I.rectified a = some ((I.operators a).map fun op => ⟨op.party, x (op.party - 1), o (op.party - 1)⟩) := by
    unfold Input.rectified
    rw [hne, hrect]
    simp
  set rows : List Marginal.Row := (I.operators a).map fun op => ⟨op.party, x (op.party - 1), o (op.party - 1)⟩ with hrows
  have hgood : Marginal.GoodAtom I.outcomes rows := by
    refine ⟨?_, ?_, ?_, ?_⟩
    · rw [hrows, List.pairwise_map]
      have h1 := operators_parties ha
      have h2 : (I.operators a).Pairwise fun s t => s.party ≠ t.party := by
        have := hnd
        rwa [List.Nodup, List.pairwise_map] at this
      exact (h1.and h2).imp fun h => lt_of_le_of_ne h.1 h.2
    · intro t ht
      obtain ⟨op, hop, rfl⟩ := List.mem_map.1 ht
      exact (hval op hop).party_pos
    · intro t ht
      obtain ⟨op, hop, rfl⟩ := List.mem_map.1 ht
      rw [hI.outcomes_length]
      exact (hval op hop).party_le
    · intro t ht
      obtain ⟨op, hop, rfl⟩ := List.mem_map.1 ht
      have h1 := (hval op hop).party_pos
      have h2 := (hval op hop).party_le
      have h3 := (hval op hop).outcome_lt
      have hlt : op.party - 1 < I.outcomes.length := by
        rw [hI.outcomes_length]
        have : I.scenario.nParties = I.D.names.length := rfl
        omega
      refine ⟨I.outcomes[op.party - 1], List.getElem?_eq_getElem hlt, ?_⟩
      have h4 : I.scenario.outcomes (op.party - 1) = I.outcomes[op.party - 1] := List.getD_eq_getElem _ _ hlt
      rw [← h4]
      show o (op.party - 1) < _
      rw [← hev.outcome op hop]
      exact h3
  have hsett : Marginal.GoodSettings I.priv rows := by
    refine ⟨hI.priv_pos, ?_⟩
    intro t ht
    obtain ⟨op, hop, rfl⟩ := List.mem_map.1 ht
    have h1 := (hval op hop).party_pos
    have h2 := (hval op hop).party_le
    have hlt : op.party - 1 < I.priv.length := by
      rw [hI.priv_length]
      have : I.scenario.nParties = I.D.names.length := rfl
      omega
    refine ⟨I.priv[op.party - 1], List.getElem?_eq_getElem hlt, ?_⟩
    obtain ⟨x', y, h4, h5, _⟩ := ClassicalModel.decode_some hI.ok (hval op hop)
    have hd : I.observed.dims I.scenario (op.party - 1) = I.dims (op.party - 1) := rfl
    rw [hd, hev.setting op hop] at h4
    simp only [Option.some.injEq, List.cons.injEq] at h4
    show x (op.party - 1) < _
    rw [h4.1]
    have h6 : I.observed.priv (op.party - 1) = I.priv[op.party - 1] := List.getD_eq_getElem _ _ hlt
    rw [← h6]
    exact h5
  have hn : I.priv.length = I.outcomes.length := by rw [hI.priv_length, hI.outcomes_length]
  have hrne : rows ≠ [] := by
    rw [hrows]
    intro h
    have h1 : (I.operators a) = [] := by simpa using h
    rw [h1] at hspec
    simp at hspec
    exact ha.ne hspec
  set x' := Marginal.inputList I.outcomes.length rows with hx'
  have hmem : x' ∈ ndindex I.priv := Marginal.inputList_mem hn hgood hsett
  have hso := Marginal.inputList_settingsOf hgood
  refine ⟨Marginal.computeMarginal I.outcomes I.priv P rows, by unfold Input.atomMarginal; rw [hrec]; rfl, ?_⟩
  rw [Marginal.computeMarginal_eq hn P hgood hrne]
  unfold Marginal.marginal
  rw [M.event_knowable hI.ok a (I.operators a) hspec hone hnd x o hev x' (by rw [hI.ins_eq]; exact hmem) ?_, hI.outs_eq]
  · rw [← hx']
    have hcast : ∀ (l : List (List Nat)) (f : List Nat → Rat), (((l.map f).sum : Rat) : F) = (l.map fun t => ((f t : Rat) : F)).sum := by
      intro l f
      induction l with
      | nil => simp
      | cons t l ih => simp [ih]
    rw [hcast]
    have hfil : ((ndindex I.outcomes).filter fun a => decide (Marginal.Agrees rows a)) =
        (ndindex I.outcomes).filter fun b => decide (∀ op ∈ I.operators a, b.getD (op.party - 1) 0 = op.outcome) := by
      apply List.filter_congr
      intro b hb
      rw [decide_eq_decide]
      have hlb := (mem_ndindex.1 hb).1
      unfold Marginal.Agrees
      constructor
      · intro h op hop
        have := h _ (List.mem_map.2 ⟨op, hop, rfl⟩)
        rw [List.getD_eq_getElem?_getD]
        simp only at this
        rw [this, hev.outcome op hop]
        rfl
      · intro h t ht
        obtain ⟨op, hop, rfl⟩ := List.mem_map.1 ht
        have h1 := h op hop
        have hp := (hval op hop).party_le
        have hp1 := (hval op hop).party_pos
        have hlt : op.party - 1 < b.length := by
          rw [hlb, hI.outcomes_length]
          have : I.scenario.nParties = I.D.names.length := rfl
          omega
        rw [List.getD_eq_getElem _ _ hlt] at h1
        show b[op.party - 1]? = some (o (op.party - 1))
        rw [List.getElem?_eq_getElem hlt, h1, hev.outcome op hop]
    rw [hfil]
    congr 1
    apply List.map_congr_left
    intro b hb
    rw [List.mem_filter] at hb
    exact hP b (by rw [show (List.range I.scenario.nParties).map I.scenario.outcomes = I.outcomes from hI.outs_eq]; exact hb.1) x'
      (by rw [show (List.range I.scenario.nParties).map I.observed.priv = I.priv from hI.ins_eq]; exact hmem)
  · intro op hop
    have := hso.2 _ (List.mem_map.2 ⟨op, hop, rfl⟩)
    rw [List.getD_eq_getElem?_getD]
    simp only at this
    rw [this]
    rfl

end Verif.EndToEnd

import Verif.CollinsGisin.Complete
import Verif.Symmetry.Props
/-! The measurements and symmetries of a problem satisfy the hypotheses of C28. -/
namespace Verif.CollinsGisin
open Verif.Orbits
open Verif.Common
open Verif.Scenario
open Verif.Symmetry (lexorderSymmetries inducedRow Relabelling)

/-- Ranks of consecutive blocks of sizes given by a list of lists. -/
def goIdx {α : Type} (off : Nat) : List (List α) → List (List Nat)
  | [] => []
  | g :: l => ((List.range g.length).map (· + off)) :: goIdx (off + g.length) l

theorem foldl_goIdx {α : Type} (l : List (List α)) : ∀ (acc : List (List Nat)) (off : Nat),
    (l.foldl (fun (acc : List (List Nat) × Nat) g => (acc.1 ++ [(List.range g.length).map (· + acc.2)], acc.2 + g.length)) (acc, off)).1 =
      acc ++ goIdx off l := by
  induction l with
  | nil => intro acc off; simp [goIdx]
  | cons g l ih => intro acc off; simp only [List.foldl_cons]; rw [ih]; simp [goIdx]

theorem goIdx_eq {α : Type} [BEq α] [LawfulBEq α] (l : List (List α)) : ∀ (pre : List α), (pre ++ l.flatten).Nodup →
    goIdx pre.length l = l.map fun g => g.map fun a => (pre ++ l.flatten).idxOf a := by
  induction l with
  | nil => intro pre _; rfl
  | cons g l ih =>
    intro pre hnd
    have hnd' : ((pre ++ g) ++ l.flatten).Nodup := by simpa using hnd
    have h1 := ih (pre ++ g) hnd'
    simp only [List.length_append] at h1
    simp only [goIdx, List.map_cons, List.flatten_cons]
    rw [h1]
    congr 1
    · apply List.ext_getElem (by simp)
      intro k hk1 hk2
      simp only [List.getElem_map, List.getElem_range]
      have hk : k < g.length := by simpa using hk1
      have hlt : pre.length + k < (pre ++ (g ++ l.flatten)).length := by simp; omega
      have hget : (pre ++ (g ++ l.flatten))[pre.length + k] = g[k] := by
        rw [List.getElem_append_right (by omega)]
        simp [List.getElem_append_left hk]
      have := List.Nodup.idxOf_getElem (by simpa using hnd : (pre ++ (g ++ l.flatten)).Nodup) _ hlt
      rw [hget] at this
      omega
    · simp [List.append_assoc]

variable (S : Scenario)

theorem orthoIdxs_eq : S.orthoIdxs = S.measKeys.map fun k => (S.orthoGroup k).map fun op => S.lexorder.idxOf op := by
  unfold Scenario.orthoIdxs
  rw [foldl_goIdx]
  have h := goIdx_eq S.orthoGroups [] (by have := lexorder_nodup S; simpa [Scenario.lexorder] using this)
  simp only [List.length_nil, List.nil_append] at h
  rw [List.nil_append, h]
  unfold Scenario.orthoGroups Scenario.lexorder
  rw [List.map_map]
  rfl

/-- Block of a measurement. -/
def blockOf (k : Nat × List Nat × Nat) : List Nat := (S.orthoGroup k).map fun op => S.lexorder.idxOf op

theorem groupsOf_eq (hc : Nat → Bool) (force : Bool) :
    groupsOf S hc force = S.measKeys.map fun k => (effChildren hc force (k.1 - 1), blockOf S k) := by
  unfold groupsOf
  rw [orthoIdxs_eq, List.zip_map_right, List.zip_eq_zipWith, List.zipWith_self, List.map_map, List.map_map]
  rfl

theorem map_idxOf_self {α : Type} [BEq α] [LawfulBEq α] {l : List α} (h : l.Nodup) : (l.map fun a => l.idxOf a) = List.range l.length := by
  apply List.ext_getElem (by simp)
  intro k h1 h2
  simp only [List.getElem_map, List.getElem_range]
  exact h.idxOf_getElem _ (by simpa using h1)

theorem blocksOk_groupsOf (hout : ∀ p, p < S.nParties → 1 ≤ S.outcomes p) (hc : Nat → Bool) (force : Bool) :
    BlocksOk S.lexorder.length (blocksOf (groupsOf S hc force)) where
  flat := by
    have key : ∀ f : Op → Nat, (S.measKeys.map fun k => (S.orthoGroup k).map f).flatten = S.lexorder.map f := by
      intro f
      rw [lexorder_eq, List.map_flatMap, List.flatMap_def]
    rw [← map_idxOf_self (lexorder_nodup S), groupsOf_eq, blocksOf, List.map_map]
    exact key fun op => S.lexorder.idxOf op
  nonempty := by
    intro b hb
    rw [groupsOf_eq, blocksOf, List.map_map] at hb
    obtain ⟨k, hk, rfl⟩ := List.mem_map.1 hb
    have hk' := (mem_measKeys S).1 hk
    have := hout (k.1 - 1) (by omega)
    simp only [Function.comp, blockOf, Scenario.orthoGroup]
    intro h
    have := congrArg List.length h
    simp at this
    omega

/-- The relabelled measurement. -/
def actKey (g : Nat → Nat → Nat) (k : Nat × List Nat × Nat) : Nat × List Nat × Nat := (k.1, k.2.1.mapIdx g, k.2.2)

theorem actKey_mem {g : Nat → Nat → Nat} (hg : Relabelling S g) {k : Nat × List Nat × Nat} (hk : k ∈ S.measKeys)
    (hout : 1 ≤ S.outcomes (k.1 - 1)) : actKey g k ∈ S.measKeys := by
  have hv : Valid S ⟨k.1, k.2.1, k.2.2, 0⟩ := by
    have hmem : (⟨k.1, k.2.1, k.2.2, 0⟩ : Op) ∈ S.lexorder := by
      rw [lexorder_eq, List.mem_flatMap]
      exact ⟨k, hk, List.mem_map.2 ⟨0, List.mem_range.2 (by omega), rfl⟩⟩
    exact (mem_lexorder S).1 hmem
  have hv' := Verif.Symmetry.act_valid S hg hv
  have hmem := (mem_lexorder S).2 hv'
  rw [lexorder_eq, List.mem_flatMap] at hmem
  obtain ⟨k', hk', hop⟩ := hmem
  have := key_of_mem_orthoGroup S hop
  rw [← this] at hk'
  exact hk'

theorem mem_lex_of_group {k : Nat × List Nat × Nat} (hk : k ∈ S.measKeys) {op : Op} (hop : op ∈ S.orthoGroup k) : op ∈ S.lexorder := by
  rw [lexorder_eq, List.mem_flatMap]
  exact ⟨k, hk, hop⟩

theorem row_act {g : Nat → Nat → Nat} {op : Op} (hop : op ∈ S.lexorder) :
    (inducedRow S g).getD (S.lexorder.idxOf op) 0 = S.lexorder.idxOf (Verif.Symmetry.act g op) := by
  have hi := List.idxOf_lt_length_iff.2 hop
  unfold inducedRow
  rw [List.getD_eq_getElem _ _ (by simpa using hi)]
  simp [List.getElem_idxOf]

theorem blockOf_act {g : Nat → Nat → Nat} {k : Nat × List Nat × Nat} (hk : k ∈ S.measKeys) :
    (blockOf S k).map (fun i => (inducedRow S g).getD i 0) = blockOf S (actKey g k) := by
  unfold blockOf
  rw [List.map_map]
  have : S.orthoGroup (actKey g k) = (S.orthoGroup k).map (Verif.Symmetry.act g) := by
    unfold Scenario.orthoGroup actKey
    rw [List.map_map]
    rfl
  rw [this, List.map_map]
  apply List.map_congr_left
  intro op hop
  exact row_act S (mem_lex_of_group S hk hop)

theorem templateRank {k : Nat × List Nat × Nat} {t : Nat} (ht : S.measKeys[t]? = some k) (hout : 1 ≤ S.outcomes (k.1 - 1)) :
    (S.orthoIdxs.getD t []).headD 0 = S.lexorder.idxOf ⟨k.1, k.2.1, k.2.2, 0⟩ := by
  rw [orthoIdxs_eq, List.getD_eq_getElem?_getD, List.getElem?_map, ht]
  simp only [Option.map_some, Option.getD_some, Scenario.orthoGroup, List.map_map]
  obtain ⟨m, hm⟩ : ∃ m, S.outcomes (k.1 - 1) = m + 1 := ⟨S.outcomes (k.1 - 1) - 1, by omega⟩
  rw [hm, List.range_succ_eq_map]
  rfl

theorem templateAdj_symm (D : DagInput) (q : Bool) (a b : Nat) : templateAdj S D q a b = templateAdj S D q b a := by
  unfold templateAdj
  simp only
  rw [(C06_matrix D S.lexorder).1]

theorem templateAdj_eq (D : DagInput) (q : Bool) {i j : Nat} {k l : Nat × List Nat × Nat} (hi : S.measKeys[i]? = some k)
    (hj : S.measKeys[j]? = some l) (hk : 1 ≤ S.outcomes (k.1 - 1)) (hl : 1 ≤ S.outcomes (l.1 - 1)) :
    templateAdj S D q i j = !(q && (decide (k ≠ l) && !(operatorsCommute D.tbl ⟨k.1, k.2.1, k.2.2, 0⟩ ⟨l.1, l.2.1, l.2.2, 0⟩))) := by
  unfold templateAdj
  simp only
  rw [templateRank S hi hk, templateRank S hj hl]
  have hkm : (⟨k.1, k.2.1, k.2.2, 0⟩ : Op) ∈ S.lexorder :=
    mem_lex_of_group S (List.mem_of_getElem? hi) (List.mem_map.2 ⟨0, List.mem_range.2 (by omega), rfl⟩)
  have hlm : (⟨l.1, l.2.1, l.2.2, 0⟩ : Op) ∈ S.lexorder :=
    mem_lex_of_group S (List.mem_of_getElem? hj) (List.mem_map.2 ⟨0, List.mem_range.2 (by omega), rfl⟩)
  by_cases hkl : k = l
  · subst hkl
    rw [(C06_matrix D S.lexorder).2.1]
    simp
  · have hne : S.lexorder.idxOf (⟨k.1, k.2.1, k.2.2, 0⟩ : Op) ≠ S.lexorder.idxOf (⟨l.1, l.2.1, l.2.2, 0⟩ : Op) := by
      intro e
      have := (List.idxOf_inj hkm).1 e
      simp only [Op.mk.injEq] at this
      exact hkl (Prod.ext this.1 (Prod.ext this.2.1 this.2.2.1))
    rw [(C06_matrix D S.lexorder).2.2 _ _ ⟨k.1, k.2.1, k.2.2, 0⟩ ⟨l.1, l.2.1, l.2.2, 0⟩ hne]
    · simp [hkl]
    · have hi := List.idxOf_lt_length_iff.2 hkm
      rw [List.getElem?_eq_getElem hi, List.getElem_idxOf]
    · have hi := List.idxOf_lt_length_iff.2 hlm
      rw [List.getElem?_eq_getElem hi, List.getElem_idxOf]

theorem relabels_groupsOf (hout : ∀ p, p < S.nParties → 1 ≤ S.outcomes p) (D : DagInput) (q : Bool) (hc : Nat → Bool) (force : Bool) :
    Relabels (groupsOf S hc force) (templateAdj S D q) (lexorderSymmetries S) := by
  have hout' : ∀ k ∈ S.measKeys, 1 ≤ S.outcomes (k.1 - 1) := by
    intro k hk
    have hk' := (mem_measKeys S).1 hk
    exact hout _ (by omega)
  have hpos : ∀ {k l : Nat × List Nat × Nat}, k ∈ S.measKeys → l ∈ S.measKeys → blockOf S k = blockOf S l → k = l := by
    intro k l hk hl hkl
    have h0 : S.lexorder.idxOf (⟨k.1, k.2.1, k.2.2, 0⟩ : Op) ∈ blockOf S l := by
      rw [← hkl]
      exact List.mem_map.2 ⟨_, List.mem_map.2 ⟨0, List.mem_range.2 (hout' k hk), rfl⟩, rfl⟩
    obtain ⟨op, hop, he⟩ := List.mem_map.1 h0
    have := (List.idxOf_inj (mem_lex_of_group S hl hop)).1 he
    rw [← key_of_mem_orthoGroup S hop, this]
    rfl
  constructor
  · intro r hr g hg
    obtain ⟨f, hf, rfl⟩ := (Verif.Symmetry.mem_symmetries S).1 hr
    rw [groupsOf_eq] at hg ⊢
    obtain ⟨k, hk, rfl⟩ := List.mem_map.1 hg
    simp only
    rw [blockOf_act S hk]
    exact List.mem_map.2 ⟨actKey f k, actKey_mem S hf hk (hout' k hk), rfl⟩
  · intro r hr i j i' j' g h hi hj hi' hj'
    obtain ⟨f, hf, rfl⟩ := (Verif.Symmetry.mem_symmetries S).1 hr
    rw [groupsOf_eq, List.getElem?_map, Option.map_eq_some_iff] at hi hj hi' hj'
    obtain ⟨k, hk, rfl⟩ := hi
    obtain ⟨l, hl, rfl⟩ := hj
    obtain ⟨k', hk', ek⟩ := hi'
    obtain ⟨l', hl', el⟩ := hj'
    simp only [Prod.mk.injEq] at ek el
    have hkm := List.mem_of_getElem? hk
    have hlm := List.mem_of_getElem? hl
    rw [blockOf_act S hkm] at ek
    rw [blockOf_act S hlm] at el
    have e1 := hpos (List.mem_of_getElem? hk') (actKey_mem S hf hkm (hout' k hkm)) ek.2
    have e2 := hpos (List.mem_of_getElem? hl') (actKey_mem S hf hlm (hout' l hlm)) el.2
    rw [templateAdj_eq S D q hk hl (hout' k hkm) (hout' l hlm),
      templateAdj_eq S D q hk' hl' (hout' _ (List.mem_of_getElem? hk')) (hout' _ (List.mem_of_getElem? hl'))]
    subst e1; subst e2
    have hvk : Valid S ⟨k.1, k.2.1, k.2.2, 0⟩ := (mem_lexorder S).1
      (mem_lex_of_group S hkm (List.mem_map.2 ⟨0, List.mem_range.2 (hout' k hkm), rfl⟩))
    have hvl : Valid S ⟨l.1, l.2.1, l.2.2, 0⟩ := (mem_lexorder S).1
      (mem_lex_of_group S hlm (List.mem_map.2 ⟨0, List.mem_range.2 (hout' l hlm), rfl⟩))
    have hcomm := Verif.Symmetry.operatorsCommute_act S D.tbl hf hvk hvl
    have hop : ∀ k : Nat × List Nat × Nat, (⟨(actKey f k).1, (actKey f k).2.1, (actKey f k).2.2, 0⟩ : Op) =
        Verif.Symmetry.act f ⟨k.1, k.2.1, k.2.2, 0⟩ := fun k => rfl
    rw [hop, hop, hcomm]
    have hne : decide (actKey f k ≠ actKey f l) = decide (k ≠ l) := by
      rw [decide_eq_decide]
      constructor
      · intro h1 h2; exact h1 (by rw [h2])
      · intro h1 h2
        have : Verif.Symmetry.act f ⟨k.1, k.2.1, k.2.2, 0⟩ = Verif.Symmetry.act f ⟨l.1, l.2.1, l.2.2, 0⟩ := by
          rw [← hop, ← hop, h2]
        have := Verif.Symmetry.act_inj S hf hvk hvl this
        simp only [Op.mk.injEq] at this
        exact h1 (Prod.ext this.1 (Prod.ext this.2.1 this.2.2.1))
    rw [hne]

end Verif.CollinsGisin

import Mathlib.Data.List.Dedup
import Verif.Knowable.Model
import Verif.Knowable.Spec
import Verif.Scenario.Props
/-
C20: knowable moments are the events of the original network.
-/
namespace Verif.Knowable
open Verif.Scenario Verif.Common Verif.Symmetry

theorem npUnique_length_eq_iff (l : List Nat) : (npUnique l).length = l.length ↔ l.Nodup := by
  have hp : (npUnique l).Perm l.dedup := by
    rw [List.perm_ext_iff_of_nodup (npUnique_nodup l) (List.nodup_dedup l)]
    intro a
    rw [mem_npUnique, List.mem_dedup]
  rw [hp.length_eq]
  constructor
  · intro h
    have := (List.dedup_sublist l).eq_of_length h
    exact List.dedup_eq_self.1 this
  · intro h
    rw [List.dedup_eq_self.2 h]

theorem npUnique_length_le_one (l : List Nat) : (npUnique l).length ≤ 1 ↔ ∀ a ∈ l, ∀ b ∈ l, a = b := by
  constructor
  · intro h a ha b hb
    rw [← mem_npUnique] at ha hb
    match hn : npUnique l with
    | [] => rw [hn] at ha; simp at ha
    | [c] => rw [hn] at ha hb; simp at ha hb; rw [ha, hb]
    | c :: d :: t => rw [hn] at h; simp at h
  · intro h
    match hn : npUnique l with
    | [] => simp
    | [c] => simp
    | c :: d :: t =>
      have h1 := npUnique_nodup l
      rw [hn] at h1
      have h2 := h c (mem_npUnique.1 (by rw [hn]; simp)) d (mem_npUnique.1 (by rw [hn]; simp))
      subst h2
      simp at h1

theorem oneCopy_iff {S : Scenario} {mon : List Op} :
    oneCopyPerSource S.nSources mon = true ↔
      ∀ s, s < S.nSources → ∀ a ∈ mon, ∀ b ∈ mon, a.copies.getD s 0 ≠ 0 → b.copies.getD s 0 ≠ 0 →
        a.copies.getD s 0 = b.copies.getD s 0 := by
  unfold oneCopyPerSource
  simp only [List.all_eq_true, List.mem_range, Bool.not_eq_true', decide_eq_false_iff_not, Nat.not_lt,
    gt_iff_lt]
  constructor
  · intro h s hs a ha b hb h1 h2
    refine (npUnique_length_le_one _).1 (h s hs) _ ?_ _ ?_
    · simp only [List.mem_filter, List.mem_map, bne_iff_ne]; exact ⟨⟨a, ha, rfl⟩, h1⟩
    · simp only [List.mem_filter, List.mem_map, bne_iff_ne]; exact ⟨⟨b, hb, rfl⟩, h2⟩
  · intro h s hs
    rw [npUnique_length_le_one]
    intro x hx y hy
    simp only [List.mem_filter, List.mem_map, bne_iff_ne] at hx hy
    obtain ⟨⟨a, ha, rfl⟩, h1⟩ := hx
    obtain ⟨⟨b, hb, rfl⟩, h2⟩ := hy
    exact h s hs a ha b hb h1 h2

/-- The relabelling that exchanges copy 1 of every source with the copy used by the monomial. -/
def toFirst (mon : List Op) (s c : Nat) : Nat :=
  let k := ((mon.map fun op => op.copies.getD s 0).find? (· != 0)).getD 1
  if c = k then 1 else if c = 1 then k else c

theorem copies_getD {S : Scenario} {op : Op} (hv : Valid S op) {s : Nat} (hs : s < S.nSources) :
    op.copies.getD s 0 ≤ max (S.level s) 1 := by
  have hl : s < op.copies.length := by rw [hv.copies_len]; exact hs
  rw [List.getD_eq_getElem _ _ hl]
  have := hv.copies_ok s hl
  split at this
  · exact this.2
  · omega

theorem find_spec {S : Scenario} {mon : List Op} (hv : ∀ op ∈ mon, Valid S op) {s : Nat} (hs : s < S.nSources) :
    let k := ((mon.map fun op => op.copies.getD s 0).find? (· != 0)).getD 1
    1 ≤ k ∧ k ≤ max (S.level s) 1 := by
  intro k
  rcases h : (mon.map fun op => op.copies.getD s 0).find? (· != 0) with _ | v
  · have : k = 1 := by simp only [k, h]; rfl
    omega
  · have : k = v := by simp only [k, h]; rfl
    have h1 := List.find?_some h
    have h2 := List.mem_of_find?_eq_some h
    simp only [List.mem_map] at h2
    obtain ⟨op, ho, h3⟩ := h2
    have h4 := copies_getD (hv op ho) hs
    have : v ≠ 0 := by simpa using h1
    omega

theorem relabelling_toFirst {S : Scenario} {mon : List Op} (hv : ∀ op ∈ mon, Valid S op) :
    Relabelling S (toFirst mon) := by
  intro s hs
  have hk := find_spec hv hs
  unfold toFirst
  simp only at hk ⊢
  generalize (((mon.map fun op => op.copies.getD s 0).find? (· != 0)).getD 1) = k at hk ⊢
  refine ⟨?_, ?_, ?_⟩
  · rw [if_neg (by omega), if_neg (by omega)]
  · intro c h1 h2
    split_ifs <;> omega
  · intro c d h1 h2 h3 h4
    split_ifs <;> omega

theorem firstCopies_iff {S : Scenario} {mon : List Op} (hv : ∀ op ∈ mon, Valid S op) :
    (∀ s, s < S.nSources → ∀ a ∈ mon, ∀ b ∈ mon, a.copies.getD s 0 ≠ 0 → b.copies.getD s 0 ≠ 0 →
        a.copies.getD s 0 = b.copies.getD s 0) ↔
      ∃ g, Relabelling S g ∧ OnFirstCopies g mon := by
  constructor
  · intro h
    refine ⟨toFirst mon, relabelling_toFirst hv, ?_⟩
    intro op ho c hc
    simp only [act, List.mem_mapIdx] at hc
    obtain ⟨s, hl, rfl⟩ := hc
    have hs : s < S.nSources := by rw [← (hv op ho).copies_len]; exact hl
    have hg : op.copies.getD s 0 = op.copies[s] := List.getD_eq_getElem _ _ hl
    by_cases h0 : op.copies[s] = 0
    · have := (relabelling_toFirst hv s hs).1
      rw [h0, this]; omega
    · have : ((mon.map fun op => op.copies.getD s 0).find? (· != 0)) = some op.copies[s] := by
        rcases hf : (mon.map fun op => op.copies.getD s 0).find? (· != 0) with _ | v
        · exfalso
          rw [List.find?_eq_none] at hf
          have := hf (op.copies.getD s 0) (List.mem_map.2 ⟨op, ho, rfl⟩)
          rw [hg] at this
          simp [h0] at this
        · have h1 := List.find?_some hf
          have h2 := List.mem_of_find?_eq_some hf
          simp only [List.mem_map] at h2
          obtain ⟨op', ho', h3⟩ := h2
          have h4 : v ≠ 0 := by simpa using h1
          have := h s hs op ho op' ho' (by rw [hg]; exact h0) (by rw [h3]; exact h4)
          rw [hf, ← h3, ← this, hg]
      unfold toFirst
      rw [this]
      simp
  · rintro ⟨g, hg, hf⟩ s hs a ha b hb h1 h2
    have key : ∀ op ∈ mon, op.copies.getD s 0 ≠ 0 → 1 ≤ op.copies.getD s 0 ∧ op.copies.getD s 0 ≤ max (S.level s) 1 ∧
        g s (op.copies.getD s 0) = 1 := by
      intro op ho h0
      have hle := copies_getD (hv op ho) hs
      have hl : s < op.copies.length := by rw [(hv op ho).copies_len]; exact hs
      have h3 := hf op ho (g s op.copies[s]) (by
        simp only [act, List.mem_mapIdx]; exact ⟨s, hl, rfl⟩)
      rw [List.getD_eq_getElem _ _ hl] at h0 hle ⊢
      have := (hg s hs).2.1 op.copies[s] (by omega) hle
      omega
    obtain ⟨a1, a2, a3⟩ := key a ha h1
    obtain ⟨b1, b2, b3⟩ := key b hb h2
    exact (hg s hs).2.2 _ _ a1 a2 b1 b2 (by rw [a3, b3])

/-- **C20, networks.** A monomial is flagged knowable exactly when its operators belong to different parties and some
relabelling of source copies moves all of them to first copies. -/
theorem C20_knowable_iff (S : Scenario) (mon : List Op) (hv : ∀ op ∈ mon, Valid S op) :
    isKnowable S.nSources mon = true ↔
      (mon.map (·.party)).Nodup ∧ ∃ g, Relabelling S g ∧ OnFirstCopies g mon := by
  unfold isKnowable
  split
  · rename_i hl
    simp only [true_iff]
    match mon, hl with
    | [], _ => exact ⟨by simp, (firstCopies_iff hv).1 (by simp)⟩
    | [a], _ => exact ⟨by simp, (firstCopies_iff hv).1 (by simp)⟩
  · have hu := npUnique_length_eq_iff (mon.map (·.party))
    rw [List.length_map] at hu
    by_cases hn : (mon.map (·.party)).Nodup
    · have := hu.2 hn
      simp only [this, bne_self_eq_false, Bool.false_eq_true, if_false, hn, true_and]
      rw [oneCopy_iff, firstCopies_iff hv]
    · have h1 : (npUnique (mon.map (·.party))).length ≠ mon.length := fun h => hn (hu.1 h)
      simp [h1, hn]

/-- **C20, do-conditionals.** The weaker flag only asks for one copy of each source. -/
theorem C20_do_conditional_iff (S : Scenario) (mon : List Op) (hv : ∀ op ∈ mon, Valid S op) :
    isDoConditional S.nSources mon = true ↔ ∃ g, Relabelling S g ∧ OnFirstCopies g mon := by
  unfold isDoConditional
  split
  · rename_i hl
    simp only [true_iff]
    match mon, hl with
    | [], _ => exact (firstCopies_iff hv).1 (by simp)
    | [a], _ => exact (firstCopies_iff hv).1 (by simp)
  · rw [oneCopy_iff, firstCopies_iff hv]

theorem lookup_of_mem_nodup {l : List (Nat × Nat)} (hn : (l.map Prod.fst).Nodup) {a b : Nat} (h : (a, b) ∈ l) :
    l.lookup a = some b := by
  induction l with
  | nil => simp at h
  | cons p l ih =>
    obtain ⟨a', b'⟩ := p
    simp only [List.map_cons, List.nodup_cons, List.mem_map, not_exists, not_and] at hn
    simp only [List.mem_cons, Prod.mk.injEq] at h
    simp only [List.lookup_cons]
    rcases h with ⟨rfl, rfl⟩ | h
    · simp
    · have : a ≠ a' := fun e => hn.1 (a, b) h e
      have hb : (a == a') = false := by simpa using this
      rw [hb]
      exact ih hn.2 h

theorem outcomeOf_eq {S : Scenario} {mon : List Op} (hv : ∀ op ∈ mon, Valid S op) (hn : (mon.map (·.party)).Nodup)
    {op : Op} (ho : op ∈ mon) : outcomeOf (rowsOf mon) (op.party - 1) = op.outcome := by
  unfold outcomeOf
  rw [lookup_of_mem_nodup (b := op.outcome)]
  · rfl
  · simp only [rowsOf, List.map_reverse, List.map_map, List.nodup_reverse]
    rw [List.nodup_map_iff_inj_on (List.Nodup.of_map _ hn)]
    intro a ha b hb h
    simp only [Function.comp] at h
    have h1 := (hv a ha).party_pos
    have h2 := (hv b hb).party_pos
    exact (List.nodup_map_iff_inj_on (List.Nodup.of_map _ hn)).1 hn a ha b hb (by omega)
  · simp only [rowsOf, List.map_reverse, List.map_map, List.mem_reverse, List.mem_map, Function.comp]
    exact ⟨op, ho, rfl⟩

theorem settingsMatch_spec (parents dims : Nat → List Nat) (rows l : List (Nat × Nat × Nat))
    (hd : ∀ r ∈ l, ∃ t, decodeSetting (dims (r.1 - 1)) r.2.1 = some t) :
    ∃ b, settingsMatch parents dims rows l = some b ∧ (b = true ↔ ∀ r ∈ l, ∀ t, decodeSetting (dims (r.1 - 1)) r.2.1 = some t →
      (parents (r.1 - 1)).map (outcomeOf rows) = t.tail) := by
  induction l with
  | nil => exact ⟨true, rfl, by simp⟩
  | cons r l ih =>
    obtain ⟨b, h1, h2⟩ := ih (fun r hr => hd r (by simp [hr]))
    obtain ⟨t, ht⟩ := hd r (by simp)
    simp only [settingsMatch, ht]
    by_cases he : (parents (r.1 - 1)).map (outcomeOf rows) = t.tail
    · refine ⟨b, by simp [he, h1], ?_⟩
      rw [h2]
      constructor
      · intro h r' hr' t' ht'
        simp only [List.mem_cons] at hr'
        rcases hr' with rfl | hr'
        · rw [ht] at ht'
          cases ht'
          exact he
        · exact h r' hr' t' ht'
      · intro h r' hr' t' ht'
        exact h r' (by simp [hr']) t' ht'
    · refine ⟨false, by simp [he], ?_⟩
      simp only [Bool.false_eq_true, false_iff]
      intro h
      exact he (h r (by simp) t ht)

/-- **C20, every scenario.** The full test answers for every monomial of the scenario (it never raises), and it answers "knowable"
exactly when the operators belong to different parties, some relabelling of copies moves them to first copies and
– if the scenario is not a network – the monomial is an event on an ancestrally closed set of parties. -/
theorem C20_atomic_knowable_iff (S : Scenario) (network : Bool) (parents : Nat → List Nat) (priv : Nat → Nat)
    (dims : Nat → List Nat) (hdims : ∀ p, dims p = priv p :: (parents p).map S.outcomes)
    (hset : ∀ p, p < S.nParties → S.settings p = effectiveSettings (dims p))
    (mon : List Op) (hv : ∀ op ∈ mon, Valid S op) :
    (atomicKnowable S.nSources network parents dims mon = some true ∨
      atomicKnowable S.nSources network parents dims mon = some false) ∧
    (atomicKnowable S.nSources network parents dims mon = some true ↔
      (mon.map (·.party)).Nodup ∧ (∃ g, Relabelling S g ∧ OnFirstCopies g mon) ∧
      (network = true ∨ ∃ x o, IsEvent parents dims x o mon)) := by
  unfold atomicKnowable
  by_cases hk : isKnowable S.nSources mon = true
  swap
  · have hk' : isKnowable S.nSources mon = false := by simpa using hk
    rw [C20_knowable_iff S mon hv] at hk
    simp only [hk', Bool.not_false, if_true]
    refine ⟨by simp, ?_⟩
    simp only [Option.some.injEq, Bool.false_eq_true, false_iff]
    rintro ⟨h1, h2, _⟩
    exact hk ⟨h1, h2⟩
  · simp only [hk, Bool.not_true, Bool.false_eq_true, if_false]
    rw [C20_knowable_iff S mon hv] at hk
    obtain ⟨hn, hg⟩ := hk
    cases network with
    | true => simp [hn, hg]
    | false =>
      simp only [Bool.false_eq_true, if_false, false_or, hn, hg, true_and]
      have hdec : ∀ op ∈ mon, ∃ t, decodeSetting (dims (op.party - 1)) op.setting = some t := by
        intro op ho
        have h := hv op ho
        rw [(C13_effective_settings_bijective _).1, ← hset]
        · exact h.setting_lt
        · have := h.party_pos; have := h.party_le; omega
      unfold knowableNonNetwork
      by_cases hc : ∀ op ∈ mon, ∀ q ∈ parents (op.party - 1), ∃ op' ∈ mon, op'.party - 1 = q
      · rw [if_neg]
        swap
        · simp only [rowsOf, List.map_map, List.any_map, List.any_eq_true, Function.comp, not_exists, not_and,
            Bool.not_eq_true, List.any_eq_false, Bool.not_eq_true']
          rintro op ho q hq
          simp only [Bool.not_eq_false, List.contains_iff_mem, List.mem_map, Function.comp]
          obtain ⟨op', h1, h2⟩ := hc op ho q hq
          exact ⟨op', h1, h2⟩
        obtain ⟨b, h1, h2⟩ := settingsMatch_spec parents dims (rowsOf mon) (rowsOf mon) (by
          intro r hr
          simp only [rowsOf, List.mem_map] at hr
          obtain ⟨op, ho, rfl⟩ := hr
          exact hdec op ho)
        rw [h1]
        refine ⟨by cases b <;> simp, ?_⟩
        rw [Option.some.injEq, h2]
        constructor
        · intro h
          refine ⟨fun p => match mon.find? (fun op => op.party - 1 == p) with
              | some op => ((decodeSetting (dims p) op.setting).getD []).headD 0
              | none => 0, outcomeOf (rowsOf mon), hc, ?_, ?_⟩
          · intro op ho
            rw [outcomeOf_eq hv hn ho]
          · intro op ho
            have hf : mon.find? (fun op' => op'.party - 1 == op.party - 1) = some op := by
              rcases hf : mon.find? (fun op' => op'.party - 1 == op.party - 1) with _ | op'
              · rw [List.find?_eq_none] at hf
                have := hf op ho
                simp at this
              · have e1 := List.find?_some hf
                have e2 := List.mem_of_find?_eq_some hf
                simp only [beq_iff_eq] at e1
                have := (hv op ho).party_pos
                have := (hv op' e2).party_pos
                rw [hf, (List.nodup_map_iff_inj_on (List.Nodup.of_map _ hn)).1 hn op' e2 op ho (by omega)]
            simp only [hf]
            obtain ⟨t, ht⟩ := hdec op ho
            have h3 := h (op.party, op.setting, op.outcome) (List.mem_map.2 ⟨op, ho, rfl⟩) t ht
            simp only at h3
            rw [ht, h3]
            have h4 := ((C13_effective_settings_bijective (dims (op.party - 1))).2.1 t).1 ⟨_, ht⟩
            have h5 : t.length = (dims (op.party - 1)).length := h4.1
            rw [hdims] at h5
            match t, h5 with
            | c :: t', _ => simp
        · rintro ⟨x, o, he⟩ r hr t ht
          simp only [rowsOf, List.mem_map] at hr
          obtain ⟨op, ho, rfl⟩ := hr
          simp only at ht ⊢
          rw [he.setting op ho] at ht
          cases ht
          simp only [List.tail_cons]
          apply List.map_congr_left
          intro q hq
          obtain ⟨op', h1, h2⟩ := he.closed op ho q hq
          rw [← h2, ← he.outcome op' h1]
          exact outcomeOf_eq hv hn h1
      · rw [if_pos]
        · refine ⟨by simp, ?_⟩
          simp only [Option.some.injEq, Bool.false_eq_true, false_iff]
          rintro ⟨x, o, he⟩
          exact hc he.closed
        · push Not at hc
          obtain ⟨op, ho, q, hq, hc⟩ := hc
          simp only [rowsOf, List.map_map, List.any_map, List.any_eq_true, Function.comp]
          refine ⟨op, ho, q, hq, ?_⟩
          simp only [Bool.not_eq_true', List.contains_eq_mem, decide_eq_false_iff_not, List.mem_map, not_exists, not_and, Function.comp]
          exact hc

/-- **C20, reading the event.** For an event the rectified rows state each party's private setting and outcome. -/
theorem C20_rectified (parents dims : Nat → List Nat) (x o : Nat → Nat) (mon : List Op)
    (h : IsEvent parents dims x o mon) :
    rectify dims (rowsOf mon) = some (mon.map fun op => (op.party, x (op.party - 1), o (op.party - 1))) := by
  unfold rectify rowsOf
  have h' : ∀ l : List Op, (∀ op ∈ l, op ∈ mon) →
      (l.map fun op => (op.party, op.setting, op.outcome)).mapM
        (fun r : Nat × Nat × Nat => (decodeSetting (dims (r.1 - 1)) r.2.1).map fun l => (r.1, l.headD 0, r.2.2)) =
      some (l.map fun op => (op.party, x (op.party - 1), o (op.party - 1))) := by
    intro l
    induction l with
    | nil => intro _; rfl
    | cons op l ih =>
      intro hl
      have e1 := h.setting op (hl op (by simp))
      have e2 := h.outcome op (hl op (by simp))
      have e3 := ih (fun op' h' => hl op' (by simp [h']))
      simp only [List.map_cons, List.mapM_cons]
      rw [e3, e1, e2]
      rfl
  exact h' mon (fun _ h => h)

/-! Non-vacuity: the instrumental-like scenario `A → B` with one shared source of level 2; `A` has 2 private settings,
`B` none, both have 2 outcomes; `B`'s effective setting is the outcome of `A`. -/
def exS : Scenario := ⟨2, 1, fun _ => 2, fun p => if p = 0 then 2 else 2, fun _ _ => true, fun _ => 2⟩
def exParents : Nat → List Nat := fun p => if p = 1 then [0] else []
def exDims : Nat → List Nat := fun p => if p = 0 then [2] else [1, 2]

example : atomicKnowable 1 false exParents exDims [⟨1, [2], 1, 0⟩, ⟨2, [2], 0, 1⟩] = some true := by decide
example : atomicKnowable 1 false exParents exDims [⟨1, [2], 1, 0⟩, ⟨2, [2], 1, 1⟩] = some false := by decide
example : atomicKnowable 1 false exParents exDims [⟨2, [2], 1, 1⟩] = some false := by decide
example : atomicKnowable 1 true exParents exDims [⟨1, [2], 1, 0⟩, ⟨2, [1], 1, 1⟩] = some false := by decide
example : rectify exDims [(1, 1, 0), (2, 0, 1)] = some [(1, 1, 0), (2, 0, 1)] := by decide
example : ∀ op ∈ ([⟨1, [2], 1, 0⟩, ⟨2, [2], 0, 1⟩] : List Op), Valid exS op := by
  intro op h
  simp only [List.mem_cons, List.not_mem_nil, or_false] at h
  rcases h with rfl | rfl <;> refine ⟨by decide, by decide, by decide, ?_, by decide, by decide⟩ <;> decide
example : IsEvent exParents exDims (fun p => if p = 0 then 1 else 0) (fun p => p) [⟨1, [2], 1, 0⟩, ⟨2, [2], 0, 1⟩] :=
  ⟨by decide, by decide, by decide⟩
example : (∀ p, exDims p = (if p = 0 then 2 else 1) :: (exParents p).map exS.outcomes → p < 2 →
    exS.settings p = effectiveSettings (exDims p)) := by
  intro p _ hp
  have : p = 0 ∨ p = 1 := by omega
  rcases this with rfl | rfl <;> decide

end Verif.Knowable

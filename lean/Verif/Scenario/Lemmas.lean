import Verif.Scenario.Spec
import Mathlib.Data.List.Basic
import Mathlib.Data.List.Nodup
/-! Helper lemmas about the operator enumeration. -/
namespace Verif.Scenario

theorem mem_ndindex {dims idx : List Nat} :
    idx ∈ ndindex dims ↔ idx.length = dims.length ∧
      ∀ s (h : s < dims.length) (h' : s < idx.length), idx[s] < dims[s] := by
  induction dims generalizing idx with
  | nil =>
    simp only [ndindex, List.mem_singleton, List.length_nil]
    constructor
    · rintro rfl; simp
    · rintro ⟨h, _⟩; exact List.length_eq_zero_iff.1 h
  | cons d ds ih =>
    simp only [ndindex, List.mem_flatMap, List.mem_range, List.mem_map]
    constructor
    · rintro ⟨i, hi, r, hr, rfl⟩
      obtain ⟨h1, h2⟩ := ih.1 hr
      refine ⟨by simp [h1], ?_⟩
      intro s h h'
      cases s with
      | zero => simpa using hi
      | succ s => simpa using h2 s (by simpa using h) (by simpa using h')
    · rintro ⟨h1, h2⟩
      match idx with
      | [] => simp at h1
      | i :: r =>
        refine ⟨i, ?_, r, ?_, rfl⟩
        · exact h2 0 (by simp) (by simp)
        · refine ih.2 ⟨by simpa using h1, ?_⟩
          intro s h h'
          exact h2 (s + 1) (by simpa using h) (by simpa using h')

theorem nodup_ndindex (dims : List Nat) : (ndindex dims).Nodup := by
  induction dims with
  | nil => simp [ndindex]
  | cons d ds ih =>
    rw [ndindex, List.nodup_flatMap]
    refine ⟨fun i _ => ih.map (List.cons_injective), ?_⟩
    refine List.nodup_range.imp ?_
    intro a b hab
    simp only [Function.onFun, List.disjoint_left, List.mem_map]
    rintro _ ⟨x, _, rfl⟩ ⟨y, _, h⟩
    simp at h
    exact hab h.1.symm

theorem length_ndindex (dims : List Nat) : (ndindex dims).length = dims.foldr (· * ·) 1 := by
  induction dims with
  | nil => rfl
  | cons d ds ih =>
    simp [ndindex, List.length_flatMap, ih]

variable (S : Scenario)

theorem mem_inflationIndices {p : Nat} {I : List Nat} :
    I ∈ S.inflationIndices p ↔ I.length = S.nSources ∧
      ∀ s (h : s < I.length),
        if S.hyp s p then 1 ≤ I[s] ∧ I[s] ≤ max (S.level s) 1 else I[s] = 0 := by
  simp only [Scenario.inflationIndices, List.mem_map, mem_ndindex]
  constructor
  · rintro ⟨inc, ⟨hl, hlt⟩, rfl⟩
    have hl' : inc.length = S.nSources := by simpa [Scenario.numCopies] using hl
    refine ⟨by simp [Scenario.active, hl'], ?_⟩
    intro s hs
    have hs' : s < S.nSources := by simpa [Scenario.active, hl'] using hs
    have := hlt s (by simpa [Scenario.numCopies] using hs') (by omega)
    simp only [Scenario.numCopies, List.getElem_map, List.getElem_range] at this
    simp only [Scenario.active, List.getElem_zipWith, List.getElem_map, List.getElem_range]
    by_cases hh : S.hyp s p = true
    · simp only [hh, if_true] at *; omega
    · simp only [hh] at *; simp at *; omega
  · rintro ⟨hl, hI⟩
    refine ⟨List.zipWith (· - ·) I (S.active p), ⟨by simp [Scenario.numCopies, Scenario.active, hl], ?_⟩, ?_⟩
    · intro s hs hs'
      have hs2 : s < I.length := by simp [Scenario.numCopies] at hs; omega
      have := hI s hs2
      simp only [Scenario.numCopies, Scenario.active, List.getElem_zipWith, List.getElem_map, List.getElem_range]
      by_cases hh : S.hyp s p = true
      · simp only [hh, if_true] at *; omega
      · simp only [hh] at *; simp at *; omega
    · apply List.ext_getElem
      · simp [Scenario.active, hl]
      · intro s h1 h2
        have := hI s h2
        simp only [Scenario.active, List.getElem_zipWith, List.getElem_map, List.getElem_range]
        by_cases hh : S.hyp s p = true
        · simp only [hh, if_true] at *; omega
        · simp only [hh] at *; simp at *

theorem nodup_inflationIndices (p : Nat) : (S.inflationIndices p).Nodup := by
  rw [Scenario.inflationIndices]
  apply List.Nodup.map_on _ (nodup_ndindex _)
  intro x hx y hy h
  rw [mem_ndindex] at hx hy
  have hlx : x.length = S.nSources := by simpa [Scenario.numCopies] using hx.1
  have hly : y.length = S.nSources := by simpa [Scenario.numCopies] using hy.1
  apply List.ext_getElem (by omega)
  intro s h1 h2
  have h' := congrArg (fun l : List Nat => l[s]?) h
  have hs : s < (S.active p).length := by simp [Scenario.active]; omega
  simp only [List.getElem?_zipWith] at h'
  rw [List.getElem?_eq_getElem hs, List.getElem?_eq_getElem h1, List.getElem?_eq_getElem h2] at h'
  simp at h'
  exact h'

theorem mem_measKeys {k : Nat × List Nat × Nat} :
    k ∈ S.measKeys ↔ 1 ≤ k.1 ∧ k.1 ≤ S.nParties ∧ k.2.1 ∈ S.inflationIndices (k.1 - 1) ∧
      k.2.2 < S.settings (k.1 - 1) := by
  obtain ⟨p, I, s⟩ := k
  simp only [Scenario.measKeys, List.mem_flatMap, List.mem_range, List.mem_map, Prod.mk.injEq]
  constructor
  · rintro ⟨q, hq, J, hJ, t, ht, rfl, rfl, rfl⟩
    exact ⟨by omega, by omega, by simpa using hJ, by simpa using ht⟩
  · rintro ⟨h1, h2, h3, h4⟩
    exact ⟨p - 1, by omega, I, h3, s, h4, by omega, rfl, rfl⟩

theorem nodup_measKeys : S.measKeys.Nodup := by
  rw [Scenario.measKeys, List.nodup_flatMap]
  constructor
  · intro p _
    rw [List.nodup_flatMap]
    constructor
    · intro I _
      apply List.nodup_range.map
      intro a b h; simpa using h
    · refine (nodup_inflationIndices S p).imp ?_
      intro a b hab
      simp only [Function.onFun, List.disjoint_left, List.mem_map]
      rintro _ ⟨x, _, rfl⟩ ⟨y, _, h⟩
      simp at h
      exact hab h.1.symm
  · refine List.nodup_range.imp ?_
    intro a b hab
    simp only [Function.onFun, List.disjoint_left, List.mem_flatMap, List.mem_map]
    rintro _ ⟨I, _, x, _, rfl⟩ ⟨J, _, y, _, h⟩
    simp at h
    exact hab h.1.symm

/-- The measurement an operator belongs to. -/
def Op.key (op : Op) : Nat × List Nat × Nat := (op.party, op.copies, op.setting)

theorem key_of_mem_orthoGroup {k : Nat × List Nat × Nat} {op : Op} (h : op ∈ S.orthoGroup k) :
    op.key = k := by
  simp only [Scenario.orthoGroup, List.mem_map, List.mem_range] at h
  obtain ⟨o, _, rfl⟩ := h
  rfl

theorem lexorder_eq : S.lexorder = S.measKeys.flatMap S.orthoGroup := by
  simp [Scenario.lexorder, Scenario.orthoGroups, List.flatMap]

theorem mem_lexorder {op : Op} : op ∈ S.lexorder ↔ Valid S op := by
  rw [lexorder_eq, List.mem_flatMap]
  constructor
  · rintro ⟨k, hk, hop⟩
    have hkey := key_of_mem_orthoGroup S hop
    subst hkey
    rw [mem_measKeys] at hk
    obtain ⟨h1, h2, h3, h4⟩ := hk
    rw [mem_inflationIndices] at h3
    simp only [Scenario.orthoGroup, List.mem_map, List.mem_range] at hop
    obtain ⟨o, ho, hop⟩ := hop
    refine ⟨h1, h2, h3.1, h3.2, h4, ?_⟩
    rw [← hop]; exact ho
  · intro h
    refine ⟨op.key, ?_, ?_⟩
    · rw [mem_measKeys]
      refine ⟨h.party_pos, h.party_le, ?_, h.setting_lt⟩
      rw [mem_inflationIndices]
      exact ⟨h.copies_len, h.copies_ok⟩
    · simp only [Scenario.orthoGroup, List.mem_map, List.mem_range]
      exact ⟨op.outcome, h.outcome_lt, rfl⟩

theorem lexorder_nodup : S.lexorder.Nodup := by
  rw [lexorder_eq, List.nodup_flatMap]
  constructor
  · intro k _
    apply List.nodup_range.map
    intro a b h; simpa using h
  · refine (nodup_measKeys S).imp ?_
    intro a b hab
    simp only [Function.onFun, List.disjoint_left]
    intro op h1 h2
    exact hab ((key_of_mem_orthoGroup S h1).symm.trans (key_of_mem_orthoGroup S h2))

/-! ### Ranks and measurements -/

/-- Index of the measurement of the operator of rank `i` (only used in proofs). -/
def measIdx (i : Nat) : Nat :=
  match S.lexorder[i]? with
  | some op => S.measKeys.idxOf op.key
  | none => 0

theorem pairwise_idxOf_flatMap {κ α : Type} [BEq κ] [LawfulBEq κ] (K : List κ) (f : κ → List α) (key : α → κ)
    (hK : K.Nodup) (hkey : ∀ k ∈ K, ∀ x ∈ f k, key x = k) :
    (K.flatMap f).Pairwise fun x y => K.idxOf (key x) ≤ K.idxOf (key y) := by
  induction K with
  | nil => simp
  | cons k K ih =>
    rw [List.nodup_cons] at hK
    rw [List.flatMap_cons, List.pairwise_append]
    have hmem : ∀ y ∈ K.flatMap f, key y ≠ k := by
      intro y hy
      obtain ⟨k', hk', hy'⟩ := List.mem_flatMap.1 hy
      rw [hkey k' (by simp [hk']) y hy']
      rintro rfl
      exact hK.1 hk'
    refine ⟨?_, ?_, ?_⟩
    · rw [List.pairwise_iff_forall_sublist]
      intro x y hxy
      have hx : x ∈ f k := hxy.subset (by simp)
      have hy : y ∈ f k := hxy.subset (by simp)
      rw [hkey k (by simp) x hx, hkey k (by simp) y hy]; exact Nat.le_refl _
    · have := ih hK.2 fun k' hk' x hx => hkey k' (by simp [hk']) x hx
      refine List.Pairwise.imp_of_mem ?_ this
      intro x y hx hy h
      rw [List.idxOf_cons_ne _ (hmem x hx).symm, List.idxOf_cons_ne _ (hmem y hy).symm]
      omega
    · intro x hx y _
      rw [hkey k (by simp) x hx, List.idxOf_cons_self]
      omega

theorem measIdx_mono {i j : Nat} (hij : i ≤ j) (hj : j < S.lexorder.length) :
    measIdx S i ≤ measIdx S j := by
  rcases Nat.lt_or_eq_of_le hij with hlt | rfl
  · have hp := pairwise_idxOf_flatMap S.measKeys S.orthoGroup Op.key (nodup_measKeys S)
      (fun k _ x hx => key_of_mem_orthoGroup S hx)
    rw [← lexorder_eq] at hp
    have := List.pairwise_iff_getElem.1 hp i j (by omega) hj hlt
    unfold measIdx
    rw [List.getElem?_eq_getElem hj, List.getElem?_eq_getElem (by omega : i < S.lexorder.length)]
    simpa only using this
  · exact Nat.le_refl _

theorem measIdx_eq_iff {i j : Nat} (hi : i < S.lexorder.length) (hj : j < S.lexorder.length) :
    measIdx S i = measIdx S j ↔ S.lexorder[i].key = S.lexorder[j].key := by
  unfold measIdx
  rw [List.getElem?_eq_getElem hj, List.getElem?_eq_getElem hi]
  simp only
  have hmem : ∀ k (hk : k < S.lexorder.length), S.lexorder[k].key ∈ S.measKeys := by
    intro k hk
    have h1 : S.lexorder[k] ∈ S.lexorder := List.getElem_mem hk
    obtain ⟨q, hq, hop⟩ : ∃ q ∈ S.measKeys, S.lexorder[k] ∈ S.orthoGroup q := by
      have h2 := h1
      generalize S.lexorder[k] = op at h2 ⊢
      rw [lexorder_eq] at h2
      exact List.mem_flatMap.1 h2
    rw [key_of_mem_orthoGroup S hop]; exact hq
  constructor
  · intro h
    exact (List.idxOf_inj (hmem i hi)).1 h
  · intro h; rw [h]

/-! ### Lookups -/

theorem lookup_some {op : Op} {i : Nat} (h : S.lookup op = some i) :
    S.lexorder[i]? = some op := by
  unfold Scenario.lookup at h
  rw [List.idxOf?_eq_some_iff] at h
  obtain ⟨hi, he, _⟩ := h
  rw [List.getElem?_eq_getElem hi]
  simpa using he

theorem lookup_getElem {i : Nat} (h : i < S.lexorder.length) :
    S.lookup S.lexorder[i] = some i := by
  unfold Scenario.lookup
  rw [List.idxOf?_eq_some_iff]
  refine ⟨h, by simp, ?_⟩
  intro j hj
  have := (lexorder_nodup S).getElem_inj_iff (hi := by omega) (hj := h) (i := j)
  intro he
  have := this.1 (by simpa using he)
  omega

theorem lookup_none {op : Op} : S.lookup op = none ↔ op ∉ S.lexorder := by
  unfold Scenario.lookup
  rw [List.idxOf?_eq_none_iff]

end Verif.Scenario

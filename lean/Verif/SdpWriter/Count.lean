import Verif.SdpWriter.Value
import Mathlib.Data.Finset.Card
import Mathlib.Order.Interval.Finset.Nat
/-
The number of variables declared in the header.
-/
namespace Verif.SdpWriter
open Verif.Text Verif.State Verif.SdpSolver Verif.Common

set_option linter.unusedSectionVars false

variable {K : Type} {n : Nat} [Field K] [LinearOrder K]

/-- The indices are used without gaps; known and semi-known moments occur in the moment matrix, `One` with its value 1; no two semi-known moments are multiples of the
same moment outside the matrix. -/
structure Prob.Countable (p : Prob K n) : Prop where
  dense : ∀ k, 2 ≤ k → (∃ i j, k ≤ p.mm i j) → ∃ i j, p.mm i j = k
  one : (∃ i j, p.mm i j = 1) ∧ 1 ∈ p.known.keys
  zero : (∃ i j, p.mm i j = 0) ↔ 0 ∈ p.known.keys
  known : ∀ k ∈ p.known.keys, ∃ i j, p.mm i j = k
  semi : ∀ k ∈ p.semi.keys, ∃ i j, p.mm i j = k
  targets : ∀ s ∈ p.semi, ∀ t ∈ p.semi, s.2.2 = t.2.2 → (∀ i j, p.mm i j < s.2.2) → s.1 = t.1

theorem foldl_max (l : List Nat) (a : Nat) : a ≤ l.foldl max a ∧ (∀ x ∈ l, x ≤ l.foldl max a) ∧ (l.foldl max a = a ∨ l.foldl max a ∈ l) := by
  induction l generalizing a with
  | nil => simp
  | cons b l ih =>
    obtain ⟨h1, h2, h3⟩ := ih (max a b)
    rw [List.foldl_cons]
    refine ⟨by omega, ?_, ?_⟩
    · intro x hx
      rcases List.mem_cons.1 hx with rfl | hx
      · omega
      · exact h2 x hx
    · rcases h3 with h3 | h3
      · rcases Nat.le_total a b with h | h
        · right; rw [h3, Nat.max_eq_right h]; simp
        · left; rw [h3, Nat.max_eq_left h]
      · right; simp [h3]

theorem le_mmMax (p : Prob K n) (i j : Fin n) : p.mm i j ≤ mmMax p :=
  (foldl_max _ 0).2.1 _ (List.mem_map.2 ⟨(i, j), mem_cells _, rfl⟩)

theorem mmMax_mem (p : Prob K n) (h : 0 < mmMax p) : ∃ i j, p.mm i j = mmMax p := by
  rcases (foldl_max ((cells n).map fun c => p.mm c.1 c.2) 0).2.2 with e | e
  · have : mmMax p = 0 := e
    omega
  · obtain ⟨c, _, hc⟩ := List.mem_map.1 e
    exact ⟨c.1, c.2, hc⟩

theorem mmHas_iff (p : Prob K n) (k : Nat) : mmHas p k = true ↔ ∃ i j, p.mm i j = k := by
  unfold mmHas
  rw [List.any_eq_true]
  constructor
  · rintro ⟨c, _, h⟩
    exact ⟨c.1, c.2, by simpa using h⟩
  · rintro ⟨i, j, h⟩
    exact ⟨(i, j), mem_cells _, by simpa using h⟩

theorem keys_card {β : Type} (d : Dict Nat β) (h : d.keys.Nodup) : d.keys.toFinset.card = d.length := by
  rw [List.toFinset_card_of_nodup h]
  simp [Dict.keys]

/-- The moments which get a number. -/
theorem vc_keys (p : Prob K n) (hp : p.Ok) (k : Nat) : k ∈ (matrixPart p).vc.keys ↔
    ((∃ i j, p.mm i j = k) ∧ 2 ≤ k ∧ k ∉ p.known.keys ∧ k ∉ p.semi.keys) ∨ ∃ s ∈ p.semi, s.2.2 = k ∧ ∃ i j, p.mm i j = s.1 := by
  rw [mem_keys, (matrix_spec p).2.1]
  constructor
  · rintro ⟨c, _, hc⟩
    unfold cellKey at hc
    split at hc
    · split at hc
      · cases hc
      · rename_i h1
        split at hc
        · cases hc
        · rename_i h2
          rcases hs : p.semi.get (p.mm c.1 c.2) with _ | s
          · rw [hs] at hc
            simp only [Option.some.injEq] at hc
            subst hc
            exact Or.inl ⟨⟨_, _, rfl⟩, by omega, (get_none _ _).1 (by simpa using h2), (get_none _ _).1 hs⟩
          · rw [hs] at hc
            simp only [Option.some.injEq] at hc
            exact Or.inr ⟨_, get_mem _ _ _ hs, hc, _, _, rfl⟩
    · cases hc
  · have up : ∀ m, (∃ i j, p.mm i j = m) → ∃ c : Fin n × Fin n, c.1 ≤ c.2 ∧ p.mm c.1 c.2 = m := by
      rintro m ⟨i, j, h⟩
      rcases le_total i j with hij | hij
      · exact ⟨(i, j), hij, h⟩
      · exact ⟨(j, i), hij, by rw [← h]; exact hp.symm j i⟩
    rintro (⟨hm, h2, hk, hs⟩ | ⟨s, hs, rfl, hm⟩)
    · obtain ⟨c, hc, hm⟩ := up _ hm
      refine ⟨c, mem_cells c, ?_⟩
      unfold cellKey
      rw [if_pos hc, hm, if_neg (by omega), (get_none _ _).2 hk, (get_none _ _).2 hs]
      simp
    · obtain ⟨c, hc, hm⟩ := up _ hm
      obtain ⟨a1, a2⟩ := hp.semi_unknown s hs
      have hg : p.semi.get s.1 = some s.2 := (get_of_mem _ hp.semi _ _).1 hs
      refine ⟨c, mem_cells c, ?_⟩
      unfold cellKey
      rw [if_pos hc, hm, if_neg (by omega), (get_none _ _).2 a2, hg]
      simp

/-- The declared number of variables is the number of variables used. -/
theorem nvars_eq (p : Prob K n) (hp : p.Ok) (hc : p.Countable) : nvars p = ((matrixPart p).vc.length : Int) := by
  obtain ⟨⟨i1, j1, h1⟩, hk1⟩ := hc.one
  have hmax1 : 1 ≤ mmMax p := h1 ▸ le_mmMax p i1 j1
  set A := Finset.Icc 2 (mmMax p) with hA
  set Kn := p.known.keys.toFinset with hKn
  set S := p.semi.keys.toFinset with hS
  set T := ((p.semi.filter fun t => decide (mmMax p < t.2.2)).map fun t => t.2.2).toFinset with hT
  have hmemT : ∀ k, k ∈ T ↔ mmMax p < k ∧ ∃ s ∈ p.semi, s.2.2 = k := by
    intro k
    rw [hT, List.mem_toFinset, List.mem_map]
    constructor
    · rintro ⟨s, hs, rfl⟩
      rw [List.mem_filter] at hs
      exact ⟨by simpa using hs.2, s, hs.1, rfl⟩
    · rintro ⟨h, s, hs, rfl⟩
      exact ⟨s, List.mem_filter.2 ⟨hs, by simpa using h⟩, rfl⟩
  have hocc : ∀ k, 2 ≤ k → k ≤ mmMax p → ∃ i j, p.mm i j = k := by
    intro k h2 hk
    obtain ⟨i, j, h⟩ := mmMax_mem p (by omega)
    exact hc.dense k h2 ⟨i, j, by omega⟩
  have hset : (matrixPart p).vc.keys.toFinset = ((A \ Kn) \ S) ∪ T := by
    ext k
    rw [List.mem_toFinset, vc_keys p hp k, Finset.mem_union, Finset.mem_sdiff, Finset.mem_sdiff, hmemT, hA, Finset.mem_Icc, hKn, hS, List.mem_toFinset,
      List.mem_toFinset]
    constructor
    · rintro (⟨⟨i, j, h⟩, h2, hk, hs⟩ | ⟨s, hs, rfl, hm⟩)
      · exact Or.inl ⟨⟨⟨h2, h ▸ le_mmMax p i j⟩, hk⟩, hs⟩
      · obtain ⟨b1, b2, b3⟩ := hp.target_unknown s hs
        by_cases h : mmMax p < s.2.2
        · exact Or.inr ⟨h, s, hs, rfl⟩
        · exact Or.inl ⟨⟨⟨b1, by omega⟩, b2⟩, b3⟩
    · rintro (⟨⟨⟨h2, hm⟩, hk⟩, hs⟩ | ⟨hm, s, hs, rfl⟩)
      · exact Or.inl ⟨hocc k h2 hm, h2, hk, hs⟩
      · exact Or.inr ⟨s, hs, rfl, hc.semi _ (List.mem_map_of_mem hs)⟩
  have hdisj : Disjoint ((A \ Kn) \ S) T := by
    rw [Finset.disjoint_left]
    intro k hk hT'
    rw [Finset.mem_sdiff, Finset.mem_sdiff, hA, Finset.mem_Icc] at hk
    have := ((hmemT k).1 hT').1
    omega
  have hTcard : T.card = (p.semi.filter fun t => decide (mmMax p < t.2.2)).length := by
    rw [hT, List.toFinset_card_of_nodup, List.length_map]
    have hnd : (p.semi.filter fun t => decide (mmMax p < t.2.2)).Nodup := (List.Nodup.of_map _ hp.semi).filter _
    refine List.Nodup.map_on ?_ hnd
    intro s hs t ht e
    rw [List.mem_filter] at hs ht
    have h1 : s.1 = t.1 := hc.targets s hs.1 t ht.1 e fun i j => by
      have := le_mmMax p i j
      have := hs.2
      simp only [decide_eq_true_eq] at this
      omega
    have g1 := (get_of_mem _ hp.semi s.1 s.2).1 hs.1
    have g2 := (get_of_mem _ hp.semi t.1 t.2).1 ht.1
    rw [h1, g2] at g1
    exact Prod.ext h1 (Option.some.inj g1).symm
  have hSA : S ⊆ A \ Kn := by
    intro k hk
    rw [hS, List.mem_toFinset] at hk
    obtain ⟨i, j, h⟩ := hc.semi k hk
    obtain ⟨q, hq⟩ := (mem_keys _ _).1 hk
    obtain ⟨a1, a2⟩ := hp.semi_unknown _ (get_mem _ _ _ hq)
    rw [Finset.mem_sdiff, hA, Finset.mem_Icc, hKn, List.mem_toFinset]
    exact ⟨⟨a1, h ▸ le_mmMax p i j⟩, a2⟩
  have hSc : S.card = p.semi.length := keys_card _ hp.semi
  have hKc : Kn.card = p.known.length := keys_card _ hp.known
  have hAc : A.card = mmMax p - 1 := by rw [hA, Nat.card_Icc]; omega
  have hone : 1 ∈ Kn := by rw [hKn, List.mem_toFinset]; exact hk1
  have hKA : (Kn ∩ A).card + (if mmHas p 0 then 1 else 0) + 1 = Kn.card := by
    have hsplit : Kn = (Kn ∩ A) ∪ (if mmHas p 0 then {0, 1} else {1}) := by
      ext k
      rw [Finset.mem_union, Finset.mem_inter]
      constructor
      · intro hk
        have hk' := hk
        rw [hKn, List.mem_toFinset] at hk'
        obtain ⟨i, j, h⟩ := hc.known k hk'
        by_cases h2 : 2 ≤ k
        · left
          exact ⟨hk, by rw [hA, Finset.mem_Icc]; exact ⟨h2, h ▸ le_mmMax p i j⟩⟩
        · right
          have hcases : k = 0 ∨ k = 1 := by omega
          rcases hcases with rfl | rfl
          · rw [if_pos ((mmHas_iff p 0).2 ⟨i, j, h⟩)]; simp
          · split <;> simp
      · rintro (⟨h, _⟩ | h)
        · exact h
        · split at h
          · rename_i h0
            rw [Finset.mem_insert, Finset.mem_singleton] at h
            rcases h with rfl | rfl
            · rw [hKn, List.mem_toFinset]; exact hc.zero.1 ((mmHas_iff p 0).1 h0)
            · exact hone
          · rw [Finset.mem_singleton] at h; subst h; exact hone
    conv_rhs => rw [hsplit]
    rw [Finset.card_union_of_disjoint]
    · split
      · rw [Finset.card_pair (by omega)]
      · rw [Finset.card_singleton]
    · rw [Finset.disjoint_left]
      intro k hk hk'
      rw [Finset.mem_inter, hA, Finset.mem_Icc] at hk
      split at hk'
      · rw [Finset.mem_insert, Finset.mem_singleton] at hk'
        omega
      · rw [Finset.mem_singleton] at hk'
        omega
  have hAK : (A \ Kn).card + (Kn ∩ A).card = A.card := Finset.card_sdiff_add_card_inter A Kn |> fun h => by rw [Finset.inter_comm] at h; exact h
  have hAKS : ((A \ Kn) \ S).card + S.card = (A \ Kn).card := Finset.card_sdiff_add_card_eq_card hSA
  have hvc : (matrixPart p).vc.length = ((A \ Kn) \ S).card + T.card := by
    rw [← keys_card _ (matrix_spec p).1.nodup, hset, Finset.card_union_of_disjoint hdisj]
  have hcountK : (if p.known.length = 1 then (0 : Int) else
      (p.known.length : Int) - (if mmHas p 0 then 1 else 0) - (if mmHas p 1 then 1 else 0)) = ((Kn ∩ A).card : Int) := by
    rw [if_pos ((mmHas_iff p 1).2 ⟨i1, j1, h1⟩)]
    by_cases hl : p.known.length = 1
    · rw [if_pos hl]
      have : (Kn ∩ A).card = 0 := by split at hKA <;> omega
      rw [this]; rfl
    · rw [if_neg hl]
      split at hKA
      · rename_i h0
        rw [if_pos h0]; omega
      · rename_i h0
        rw [if_neg h0]; omega
  unfold nvars
  dsimp only
  rw [hcountK]
  omega

end Verif.SdpWriter

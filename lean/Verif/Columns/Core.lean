import Verif.Columns.Lemmas
/-
Generating sets over an abstract operator list.
-/
set_option linter.unusedSectionVars false
namespace Verif.Columns
open Verif.Scenario Verif.Canon Verif.Canon.Spec Verif.Common Verif.MomentMatrix

variable {N : Nat} {nc om : BMat} {meas : Nat → Nat} {commuting : Bool} {ops : Nat → List Nat} {party : Nat → Nat}

theorem canon_eq (hcomm : commuting = true → ∀ a b, nc a b = false) (w : List Nat) :
    toCanonical nc om commuting false w = toCanonical nc om false false w := by
  cases h : commuting with
  | false => rfl
  | true => exact C05_commuting_shortcut_agrees nc om false w fun a _ c _ => hcomm h a c

theorem canon_mem {w : List Nat} {x : Nat} (h : x ∈ toCanonical nc om false false w) : x ∈ w ∨ toCanonical nc om false false w = [0] := by
  rw [toCanonical_eq] at h ⊢
  split
  · exact .inr rfl
  · rename_i hp
    rw [if_neg hp] at h
    exact .inl ((canon_sound nc w).perm.mem_iff.2 (removeSquares_mem h))

theorem canon_length_le (w : List Nat) : (toCanonical nc om false false w).length ≤ w.length := by
  rcases w with _ | ⟨a, t⟩
  · simp [toCanonical]
  · exact toCanonical_length_le (by simp)

/-- A canonical form as long as the word consists of the same operators. -/
theorem canon_perm {w : List Nat} (h : (toCanonical nc om false false w).length = w.length) (h0 : toCanonical nc om false false w ≠ [0]) :
    (toCanonical nc om false false w).Perm w := by
  rw [toCanonical_eq] at h h0 ⊢
  split at h
  · rename_i hp
    rw [if_pos hp] at h0
    exact absurd rfl h0
  · rename_i hp
    rw [if_neg hp]
    have hl := (canon_sound nc w).perm.length_eq
    rw [removeSquares_eq_of_length (by omega)]
    exact (canon_sound nc w).perm.symm

/-- Everything assumed about the operators of the parties. -/
structure Ops (N : Nat) (ops : Nat → List Nat) (party : Nat → Nat) : Prop where
  lt : ∀ p, ∀ x ∈ ops p, 0 < x ∧ x < N
  party : ∀ p, ∀ x ∈ ops p, party x = p

theorem product_mem (hO : Ops N ops party) {block w : List Nat} (h : w ∈ product (block.map ops)) :
    w.length = block.length ∧ w.map party = block ∧ ∀ x ∈ w, x ∈ ops (party x) := by
  rw [mem_product] at h
  induction block generalizing w with
  | nil => cases h; simp
  | cons p block ih =>
    cases h with
    | cons hx hw =>
      obtain ⟨h1, h2, h3⟩ := ih hw
      have hp := hO.party p _ hx
      refine ⟨by simp [h1], by simp [h2, hp], ?_⟩
      intro y hy
      rcases List.mem_cons.1 hy with rfl | hy
      · rw [hp]; exact hx
      · exact h3 y hy

theorem mem_product_of {w : List Nat} (h : ∀ x ∈ w, x ∈ ops (party x)) : w ∈ product ((w.map party).map ops) := by
  rw [mem_product]
  induction w with
  | nil => exact .nil
  | cons x w ih => exact .cons (h x (by simp)) (ih fun y hy => h y (List.mem_cons_of_mem _ hy))

/-- What a column from a block is. -/
theorem fromBlock_sound (H : OperatorList N nc om meas) (hcomm : commuting = true → ∀ a b, nc a b = false) (hO : Ops N ops party)
    {block m : List Nat} (h : FromBlock (toCanonical nc om commuting false) ops block m) :
    toCanonical nc om commuting false m = m ∧ m ≠ [0] ∧ m.length = block.length ∧ (m.map party).Perm block ∧ ∀ x ∈ m, x ∈ ops (party x) := by
  rcases h with ⟨rfl, rfl⟩ | ⟨hb, w, hw, hc, h0, hl⟩
  · simp [toCanonical]
  · rw [canon_eq hcomm] at hc ⊢
    obtain ⟨h1, h2, h3⟩ := product_mem hO hw
    have hp : m.Perm w := by
      rw [← hc]
      apply canon_perm
      · rw [hc]; omega
      · rw [hc]; exact h0
    refine ⟨?_, h0, hl, ?_, ?_⟩
    · rw [← hc]
      exact C04_canonical_idempotent nc om H.nc_symm H.nc_diag false w
    · rw [← h2]; exact hp.map party
    · intro x hx
      exact h3 x (hp.mem_iff.1 hx)

/-- A non-vanishing monomial in canonical form is obtained from the block of its parties in increasing order, provided that operators of different parties commute. -/
theorem fromBlock_complete (H : OperatorList N nc om meas) (hcomm : commuting = true → ∀ a b, nc a b = false) (hO : Ops N ops party)
    (hparty : ∀ a b, 0 < a → a < N → 0 < b → b < N → party a ≠ party b → nc a b = false)
    {m : List Nat} (hc : toCanonical nc om commuting false m = m) (h0 : m ≠ [0]) (hm : ∀ x ∈ m, x ∈ ops (party x)) :
    FromBlock (toCanonical nc om commuting false) ops ((sortBy (fun a b => decide (party a ≤ party b)) m).map party) m := by
  rcases m with _ | ⟨a, t⟩
  · exact .inl ⟨rfl, rfl⟩
  · right
    set m := a :: t with hmdef
    have hperm := sortBy_perm (fun a b => decide (party a ≤ party b)) m
    have hlt : ∀ x ∈ m, x < N := fun x hx => (hO.lt _ x (hm x hx)).2
    have hcq : CommEq (fun a b => nc a b = false) m (sortBy (fun a b => decide (party a ≤ party b)) m) := by
      apply commEq_sortBy
      intro x hx y hy hne
      exact hparty x y (hO.lt _ x (hm x hx)).1 (hlt x hx) (hO.lt _ y (hm y hy)).1 (hlt y hy) hne
    refine ⟨?_, sortBy (fun a b => decide (party a ≤ party b)) m, ?_, ?_, h0, ?_⟩
    · intro e
      have : (sortBy (fun a b => decide (party a ≤ party b)) m).length = 0 := by
        rw [← List.length_map (f := party), e]; rfl
      rw [hperm.length_eq] at this
      simp [hmdef] at this
    · exact mem_product_of fun x hx => hm x (hperm.mem_iff.1 hx)
    · rw [canon_eq hcomm] at hc ⊢
      conv_rhs => rw [← hc]
      rw [toCanonical_iff H (fun x hx => hlt x (hperm.mem_iff.1 hx)) hlt]
      exact (OpEq.of_commEq hcq).symm
    · rw [List.length_map, hperm.length_eq]

theorem mem_cols {specs : List (List Nat)} {canon : List Nat → List Nat} {m : List Nat} :
    m ∈ colsFromSpecs canon ops specs ↔ ∃ b ∈ specs, FromBlock canon ops b m := by
  obtain ⟨c, h1, h2, _⟩ := blocks_spec (canon := canon) (ops := ops) specs []
  unfold colsFromSpecs
  rw [h1, h2]
  simp

theorem nodup_cols {specs : List (List Nat)} {canon : List Nat → List Nat} (h : specs.count [] ≤ 1) : (colsFromSpecs canon ops specs).Nodup := by
  obtain ⟨c, h1, _, h3, _⟩ := blocks_spec (canon := canon) (ops := ops) specs []
  unfold colsFromSpecs
  rw [h1]
  exact h3 List.nodup_nil (by simpa using h)

theorem head_cols {specs : List (List Nat)} {canon : List Nat → List Nat} : (colsFromSpecs canon ops ([] :: specs)).head? = some [] := by
  unfold colsFromSpecs
  rw [List.foldl_cons]
  have e : blockStep canon ops ([], []) [] = ([[]], [[]]) := by unfold blockStep; simp
  rw [e]
  obtain ⟨c, h1, _, _, t, ht⟩ := blocks_spec (canon := canon) (ops := ops) specs [[]]
  rw [h1, ht]
  rfl

theorem increasing_iff (l : List Nat) : increasing l = true ↔ l.Pairwise (· ≤ ·) := by
  fun_induction increasing l with
  | case1 a b t ih =>
    simp only [Bool.and_eq_true, decide_eq_true_eq, ih, List.pairwise_cons]
    constructor
    · rintro ⟨h, h1, h2⟩
      refine ⟨?_, h1, h2⟩
      intro x hx
      rcases List.mem_cons.1 hx with rfl | hx
      · exact h
      · exact Nat.le_trans h (h1 x hx)
    · rintro ⟨h, h1, h2⟩
      exact ⟨h b (by simp), h1, h2⟩
  | case2 l h =>
    match l, h with
    | [], _ => simp
    | [a], _ => simp
    | a :: b :: t, h => exact absurd rfl (h a b t)

theorem mem_npaSpecs {n level maxLen : Nat} {b : List Nat} :
    b ∈ npaSpecs n level maxLen ↔ b.Pairwise (· ≤ ·) ∧ (∀ p ∈ b, p < n) ∧ b.length ≤ cutoff level maxLen := by
  have hrep : ∀ (k : Nat) (b : List Nat), b ∈ product (List.replicate k (List.range n)) ↔ (∀ p ∈ b, p < n) ∧ b.length = k := by
    intro k
    induction k with
    | zero =>
      intro b
      simp only [List.replicate_zero, product, List.mem_singleton, List.length_eq_zero_iff]
      constructor
      · rintro rfl; simp
      · exact fun h => h.2
    | succ k ih =>
      intro b
      simp only [List.replicate_succ, product, List.mem_flatMap, List.mem_map, List.mem_range, ih]
      constructor
      · rintro ⟨x, hx, v, ⟨hv, hl⟩, rfl⟩
        refine ⟨?_, by simp [hl]⟩
        intro p hp
        rcases List.mem_cons.1 hp with rfl | hp
        · exact hx
        · exact hv p hp
      · rintro ⟨hv, hl⟩
        match b, hl with
        | x :: v, hl => exact ⟨x, hv x (by simp), v, ⟨fun p hp => hv p (List.mem_cons_of_mem _ hp), by simpa using hl⟩, rfl⟩
  simp only [npaSpecs, List.mem_cons, List.mem_flatMap, List.mem_range, List.mem_filter, hrep, increasing_iff]
  constructor
  · rintro (rfl | ⟨k, hk, ⟨h1, h2⟩, h3⟩)
    · simp
    · exact ⟨h3, h1, by omega⟩
  · rintro ⟨h1, h2, h3⟩
    rcases b with _ | ⟨a, t⟩
    · exact .inl rfl
    · right
      rw [List.length_cons] at h3
      exact ⟨t.length, by omega, ⟨h2, by simp⟩, h1⟩

end Verif.Columns

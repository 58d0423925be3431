import Mathlib.Data.List.Perm.Subperm
import Verif.Components.Fact
/-
C09 factorisation, C10 component labels and their 8-bit capacity, C11 the shortcut.
-/
namespace Verif.Components
open Verif.Scenario

/-! ## C10 -/

/-- **C10, within capacity.** If the (undirected) graph has at most 255 mutually unconnected vertices, two vertices get the same label
iff they are connected, and the labels in use are consecutive from 0. -/
theorem C10_labels_faithful (n : Nat) (adj : Nat → Nat → Bool) (hs : ∀ a b, adj a b = adj b a)
    (hcap : ∀ reps : List Nat, (∀ r ∈ reps, r < n) → reps.Pairwise (fun a b => ¬ Connected n adj a b) →
      reps.length ≤ 255) :
    (classify n adj).length = n ∧
    (∀ a b, a < n → b < n → ((classify n adj)[a]? = (classify n adj)[b]? ↔ Connected n adj a b)) ∧
    (∀ k ∈ classify n adj, ∀ i ≤ k, i ∈ classify n adj) := by
  obtain ⟨reps, h1, h2, h3⟩ := classify_reps hs hcap
  have hget : ∀ a, a < n → ∃ k, (classify n adj)[a]? = some k := by
    intro a ha
    exact ⟨_, List.getElem?_eq_getElem (by rw [classify_length]; exact ha)⟩
  refine ⟨classify_length, ?_, ?_⟩
  · intro a b ha hb
    obtain ⟨k, hk⟩ := hget a ha
    obtain ⟨r, e1, e2⟩ := (h3 a ha k).1 hk
    constructor
    · intro h
      rw [hk] at h
      obtain ⟨r', e1', e2'⟩ := (h3 b hb k).1 h.symm
      rw [e1] at e1'
      simp only [Option.some.injEq] at e1'
      subst e1'
      exact (Connected.symm hs e2).trans e2'
    · intro h
      rw [hk]
      exact ((h3 b hb k).2 ⟨r, e1, e2.trans h⟩).symm
  · intro k hk i hi
    obtain ⟨j, hj⟩ := List.mem_iff_getElem?.1 hk
    have hjn : j < n := by
      have := (List.getElem?_eq_some_iff.1 hj).1
      rwa [classify_length] at this
    obtain ⟨r, e1, _⟩ := (h3 j hjn k).1 hj
    have hkl : k < reps.length := (List.getElem?_eq_some_iff.1 e1).1
    have hil : i < reps.length := by omega
    have := (h3 reps[i] (h1 _ (List.getElem_mem hil)) i).2 ⟨_, List.getElem?_eq_getElem hil, .refl⟩
    exact List.mem_iff_getElem?.2 ⟨_, this⟩

theorem connected_discrete {n i j : Nat} (h : Connected n (fun a b => a == b) i j) : i = j := by
  induction h with
  | refl => rfl
  | tail _ h ih =>
    have := h.2.2
    simp only [beq_iff_eq] at this
    omega

theorem discrete_fold (n m : Nat) (hm : m ≤ n) :
    (∀ j, j < n → ((List.range m).foldl (labelStep n fun a b => a == b) (fun _ => 0, 1)).1 j =
      if j < m then (j + 1) % 256 else 0) ∧
    ((List.range m).foldl (labelStep n fun a b => a == b) (fun _ => 0, 1)).2 = m + 1 := by
  induction m with
  | zero => simp
  | succ m ih =>
    obtain ⟨h1, h2⟩ := ih (by omega)
    rw [List.range_succ, List.foldl_append]
    simp only [List.foldl_cons, List.foldl_nil]
    have h0 : ((List.range m).foldl (labelStep n fun a b => a == b) (fun _ => 0, 1)).1 m = 0 := by
      rw [h1 m (by omega)]; simp
    unfold labelStep at *
    rw [if_pos h0]
    simp only [h2, and_true]
    intro j hj
    have hc : component n (fun a b => a == b) m j = true ↔ m = j := by
      rw [component_iff (by omega) hj]
      constructor
      · exact connected_discrete
      · rintro rfl; exact .refl
    by_cases hmj : m = j
    · rw [if_pos (hc.2 hmj)]
      subst hmj
      simp
    · rw [if_neg (fun h => hmj (hc.1 h)), h1 j hj]
      have : j < m + 1 ↔ j < m := by omega
      simp [this]

/-- **C10, beyond capacity.** For `n ≥ 2` operators with pairwise disjoint support the label of operator `i` is `i mod 256`. -/
theorem C10_discrete_labels (n : Nat) (hn : 2 ≤ n) :
    classify n (fun a b => a == b) = (List.range n).map (· % 256) := by
  unfold classify
  rw [if_neg]
  · apply List.map_congr_left
    intro j hj
    rw [List.mem_range] at hj
    rw [(discrete_fold n n (Nat.le_refl n)).1 j hj, if_pos hj]
    omega
  · simp only [Bool.or_eq_true, decide_eq_true_eq, List.all_eq_true, List.mem_range, not_or, not_forall]
    refine ⟨by omega, 0, by omega, 1, by omega, by simp⟩

/-- **C10, the collision.** With 257 independent operators the first and the last are put in the same component
although they are not connected. -/
theorem C10_label_collision :
    (classify 257 fun a b => a == b)[0]? = (classify 257 fun a b => a == b)[256]? ∧
    ¬ Connected 257 (fun a b => a == b) 0 256 := by
  constructor
  · rw [C10_discrete_labels 257 (by omega)]
    simp only [List.getElem?_map, List.getElem?_range (show 0 < 257 by omega),
      List.getElem?_range (show 256 < 257 by omega), Option.map_some]
  · intro h
    have := connected_discrete h
    omega

example : classify 5 (fun a b => (a, b) ∈ [(0, 3), (3, 0), (3, 4), (4, 3)] || a == b) = [0, 1, 2, 0, 0] := by decide

/-! ## C11 -/

/-- **C11.** If the problem is flagged as never factorising, any two of its operators act on a common copy of some source. -/
theorem C11_flag_sound (S : Scenario) (h : everFactorizes S = false) (a b : Op) (ha : Valid S a) (hb : Valid S b) :
    ShareCopy a b := shareCopy_of_not_factorizes h ha hb

/-- **C11, the shortcut returns what the general path would.** -/
theorem C11_shortcut_agrees (S : Scenario) (h : everFactorizes S = false) (mon : List Nat) (hne : mon ≠ [])
    (hv : ∀ a ∈ mon, a < S.lexorder.length) : factorizeGeneral S mon = [mon] := by
  have hj : ∀ a ∈ mon, ∀ b ∈ mon, Joined S mon a b := fun a ha b hb => joined_of_not_factorizes h hv ha hb
  obtain ⟨K, lab, h1, h2, h3, h4⟩ := factorizeGeneral_spec hv hne (by
    intro reps hr hp
    match reps, hr, hp with
    | [], _, _ => simp
    | [_], _, _ => simp
    | a :: b :: l, hr, hp =>
      rw [List.pairwise_cons] at hp
      exact absurd (hj a (hr a (by simp)) b (hr b (by simp))) (hp.1 b (by simp)))
  obtain ⟨a0, ha0⟩ := List.exists_mem_of_ne_nil mon hne
  have hlab : ∀ a ∈ mon, lab a = lab a0 := fun a ha => (h4 a ha a0 ha0).2 (hj a ha a0 ha0)
  have hK : K = 1 := by
    have hpos := h2 a0 ha0
    obtain ⟨b, hb, e⟩ := h3 (K - 1) (by omega)
    obtain ⟨c, hc, e'⟩ := h3 0 (by omega)
    rw [hlab b hb] at e
    rw [hlab c hc] at e'
    omega
  rw [h1, hK]
  simp only [List.range_one, List.map_cons, List.map_nil, List.cons.injEq, and_true]
  rw [List.filter_eq_self]
  intro a ha
  have := h2 a ha
  simp only [beq_iff_eq]; omega

/-- two parties, one source with one copy: never factorises; with two copies it does -/
def exS (lev : Nat) : Scenario where
  nParties := 2
  nSources := 1
  outcomes := fun _ => 2
  settings := fun _ => 1
  hyp := fun _ _ => true
  level := fun _ => lev

example : everFactorizes (exS 1) = false ∧ everFactorizes (exS 2) = true := by decide

/-! ## C09 -/

/-- **C09.** For a monomial with at most 255 independent parts: the factors contain all its operators with multiplicity and in order,
none is empty, different factors have nothing in common, and two operators are in the same factor iff they are
joined by a chain of operators of the monomial acting on common copies of sources. -/
theorem C09_factorization (S : Scenario) (mon : List Nat) (hne : mon ≠ []) (hv : ∀ a ∈ mon, a < S.lexorder.length)
    (hcap : ∀ reps : List Nat, (∀ r ∈ reps, r ∈ mon) → reps.Pairwise (fun a b => ¬ Joined S mon a b) →
      reps.length ≤ 255) :
    (factorize S mon).flatten.Perm mon ∧
    (∀ f ∈ factorize S mon, f ≠ [] ∧ f.Sublist mon) ∧
    (factorize S mon).Pairwise List.Disjoint ∧
    (∀ f ∈ factorize S mon, ∀ a ∈ f, ∀ b ∈ mon, b ∈ f ↔ Joined S mon a b) := by
  unfold factorize
  split
  · rename_i hsc
    have hj : ∀ a ∈ mon, ∀ b ∈ mon, Joined S mon a b := by
      simp only [Bool.or_eq_true, Bool.not_eq_true', decide_eq_true_eq] at hsc
      rcases hsc with h | h
      · exact fun a ha b hb => joined_of_not_factorizes h hv ha hb
      · intro a ha b hb
        match mon, h, ha, hb with
        | [x], _, ha, hb =>
          simp only [List.mem_singleton] at ha hb
          subst ha; subst hb; exact .refl
    refine ⟨by simp, ?_, by simp, ?_⟩
    · intro f hf
      simp only [List.mem_singleton] at hf
      subst hf; exact ⟨hne, .refl _⟩
    · intro f hf a ha b hb
      simp only [List.mem_singleton] at hf
      subst hf
      exact ⟨fun _ => hj a ha b hb, fun _ => hb⟩
  · obtain ⟨K, lab, h1, h2, h3, h4⟩ := factorizeGeneral_spec hv hne hcap
    rw [h1]
    refine ⟨flatten_filter_perm mon lab K h2, ?_, ?_, ?_⟩
    · intro f hf
      simp only [List.mem_map, List.mem_range] at hf
      obtain ⟨i, hi, rfl⟩ := hf
      refine ⟨?_, List.filter_sublist⟩
      obtain ⟨a, ha, e⟩ := h3 i hi
      intro he
      have : a ∈ mon.filter fun a => lab a == i := by simp [ha, e]
      rw [he] at this; simp at this
    · rw [List.pairwise_map]
      refine List.nodup_range.imp ?_
      intro i j hij
      rw [List.disjoint_left]
      intro a ha hb
      simp only [List.mem_filter, beq_iff_eq] at ha hb
      exact hij (ha.2.symm.trans hb.2)
    · intro f hf a ha b hb
      simp only [List.mem_map, List.mem_range] at hf
      obtain ⟨i, hi, rfl⟩ := hf
      simp only [List.mem_filter, beq_iff_eq] at ha ⊢
      rw [← h4 a ha.1 b hb, ha.2]
      exact ⟨fun h => h.2.symm, fun h => ⟨hb, h.symm⟩⟩

/-- **C09, independence.** Operators in different factors never act on a common copy of a source. -/
theorem C09_factors_independent (S : Scenario) (mon : List Nat) (hv : ∀ a ∈ mon, a < S.lexorder.length)
    (hcap : ∀ reps : List Nat, (∀ r ∈ reps, r ∈ mon) → reps.Pairwise (fun a b => ¬ Joined S mon a b) →
      reps.length ≤ 255) (i j : Nat) (f g : List Nat) (hi : (factorize S mon)[i]? = some f)
    (hj : (factorize S mon)[j]? = some g) (hij : i ≠ j) (a b : Nat) (ha : a ∈ f) (hb : b ∈ g)
    (x y : Op) (hx : S.lexorder[a]? = some x) (hy : S.lexorder[b]? = some y) : ¬ ShareCopy x y := by
  intro hsh
  have hne : mon ≠ [] := by
    rintro rfl
    have : factorize S [] = [[]] := by simp [factorize]
    rw [this] at hi
    have := List.mem_of_getElem? hi
    simp only [List.mem_singleton] at this
    subst this
    simp at ha
  obtain ⟨h1, h2, h3, h4⟩ := C09_factorization S mon hne hv hcap
  have hfm := List.mem_of_getElem? hi
  have hgm := List.mem_of_getElem? hj
  have ham := (h2 f hfm).2.subset ha
  have hbm := (h2 g hgm).2.subset hb
  have hb' : b ∈ f := (h4 f hfm a ha b hbm).2 (.single ⟨ham, hbm, x, y, hx, hy, .inr hsh⟩)
  obtain ⟨hil, rfl⟩ := List.getElem?_eq_some_iff.1 hi
  obtain ⟨hjl, rfl⟩ := List.getElem?_eq_some_iff.1 hj
  have hp := List.pairwise_iff_getElem.1 h3
  rcases Nat.lt_or_gt_of_ne hij with h | h
  · exact (List.disjoint_left.1 (hp i j hil hjl h)) hb' hb
  · exact (List.disjoint_left.1 (hp j i hjl hil h)) hb hb'

/-- Monomials of at most 255 operators satisfy the capacity hypothesis. -/
theorem C09_capacity_of_length (S : Scenario) (mon : List Nat) (h : mon.length ≤ 255) :
    ∀ reps : List Nat, (∀ r ∈ reps, r ∈ mon) → reps.Pairwise (fun a b => ¬ Joined S mon a b) →
      reps.length ≤ 255 := by
  intro reps h1 h2
  have hnd : reps.Nodup := by
    refine List.Pairwise.imp ?_ h2
    intro a b hab e
    subst e
    exact hab .refl
  exact Nat.le_trans ((List.Nodup.subperm hnd h1).length_le) h

example : (exS 2).lexorder.length = 8 ∧ factorize (exS 2) [0, 2, 5, 6] = [[0, 5], [2, 6]] := by decide +kernel

end Verif.Components

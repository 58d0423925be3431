import Mathlib.Data.List.Nodup
import Mathlib.Data.List.GetD
import Mathlib.Data.List.Perm.Basic
import Mathlib.Data.List.Sort
import Verif.Components.Model
import Verif.Components.Spec
import Verif.Scenario.Lemmas
namespace Verif.Components
open Verif.Scenario

section Graph
variable {n : Nat} {adj : Nat → Nat → Bool}

/-- number of vertices not yet found -/
def missing (n : Nat) (new : Nat → Bool) : Nat := ((List.range n).filter fun j => !(new j)).length

theorem missing_lt {new new' : Nat → Bool} (hsub : ∀ j, new j = true → new' j = true) {j : Nat} (hj : j < n)
    (h1 : new j = false) (h2 : new' j = true) : missing n new' < missing n new := by
  unfold missing
  have hs : (((List.range n).filter fun j => !(new' j))).Sublist ((List.range n).filter fun j => !(new j)) := by
    apply List.monotone_filter_right
    intro a ha
    simp only [Bool.not_eq_true'] at *
    cases h : new a
    · rfl
    · rw [hsub a h] at ha; simp at ha
  rcases Nat.lt_or_ge ((List.range n).filter fun j => !(new' j)).length ((List.range n).filter fun j => !(new j)).length with h | h
  · exact h
  · exfalso
    have e := hs.eq_of_length_le h
    have hm : j ∈ (List.range n).filter fun j => !(new j) := by simp [hj, h1]
    rw [← e] at hm
    simp [h2] at hm

theorem closure_correct (i : Nat) (f : Nat) (new search : Nat → Bool)
    (ha : ∀ j, j < n → new j = true → Connected n adj i j)
    (hb : ∀ j, search j = true → new j = true)
    (hc : ∀ k j, k < n → j < n → new k = true → search k = false → adj k j = true → new j = true)
    (hf : missing n new < f ∨ ∀ j, j < n → search j = false)
    (hi : new i = true) (hin : i < n) (j : Nat) (hj : j < n) :
    closure n adj f new search j = true ↔ Connected n adj i j := by
  have done : ∀ (new search : Nat → Bool), (∀ j, j < n → new j = true → Connected n adj i j) →
      (∀ k j, k < n → j < n → new k = true → search k = false → adj k j = true → new j = true) →
      new i = true →
      (∀ j, j < n → search j = false) → ∀ j, j < n → (new j = true ↔ Connected n adj i j) := by
    intro new search ha hc hi hs j hj
    refine ⟨ha j hj, fun h => ?_⟩
    have : j < n ∧ new j = true := by
      clear hj
      induction h with
      | refl => exact ⟨hin, hi⟩
      | tail _ h ih =>
        obtain ⟨h1, h2, h3⟩ := h
        exact ⟨h2, hc _ _ h1 h2 ih.2 (hs _ h1) h3⟩
    exact this.2
  induction f generalizing new search with
  | zero =>
    simp only [closure]
    rcases hf with hf | hf
    · omega
    · exact done new search ha hc hi hf j hj
  | succ f ih =>
    unfold closure
    split
    · rename_i hany
      simp only [List.any_eq_true, List.mem_range] at hany
      obtain ⟨k0, hk0, hk0s⟩ := hany
      simp only
      have hsub : ∀ j, new j = true → (new j || (List.range n).any fun k => search k && adj k j) = true := by
        intro j h; simp [h]
      apply ih
      · intro j hj h
        simp only [Bool.or_eq_true, List.any_eq_true, List.mem_range, Bool.and_eq_true] at h
        rcases h with h | ⟨k, hk, hks, hka⟩
        · exact ha j hj h
        · exact (ha k hk (hb k hks)).tail ⟨hk, hj, hka⟩
      · intro j h
        cases hn : new j
        · rw [hn] at h
          simpa using h
        · simp
      · intro k j hk hj h1 h2 h3
        cases hn : new k
        · rw [hn] at h1 h2
          simp only [Bool.false_or] at h1 h2
          rw [h1] at h2; simp at h2
        · by_cases hs : search k = true
          · simp only [Bool.or_eq_true, List.any_eq_true, List.mem_range, Bool.and_eq_true]
            exact .inr ⟨k, hk, hs, h3⟩
          · simp only [Bool.not_eq_true] at hs
            simp only [Bool.or_eq_true]
            exact .inl (hc k j hk hj hn hs h3)
      · by_cases hex : ∃ j, j < n ∧ new j = false ∧ ((List.range n).any fun k => search k && adj k j) = true
        · obtain ⟨j, hj, h1, h2⟩ := hex
          left
          have hlt : missing n (fun j => new j || (List.range n).any fun k => search k && adj k j) < missing n new :=
            missing_lt hsub hj h1 (by simp [h2])
          rcases hf with hf | hf
          · omega
          · rw [hf k0 hk0] at hk0s; simp at hk0s
        · right
          intro j hj
          cases hn : new j
          · simp only [Bool.false_or, bne_eq_false_iff_eq]
            by_contra hne
            exact hex ⟨j, hj, hn, by simpa using hne⟩
          · simp
      · simp [hi]
    · rename_i hany
      apply done new search ha hc hi _ j hj
      intro j hj
      simp only [List.any_eq_true, List.mem_range, not_exists, not_and] at hany
      simpa using hany j hj

theorem component_iff {i j : Nat} (hi : i < n) (hj : j < n) :
    component n adj i j = true ↔ Connected n adj i j := by
  unfold component
  apply closure_correct i (n + 1)
  · intro j _ h
    simp only [beq_iff_eq] at h
    subst h; exact .refl
  · intro j h; exact h
  · intro k j _ _ h1 h2; rw [h1] at h2; simp at h2
  · left
    unfold missing
    have : ((List.range n).filter fun j => !(j == i)).length ≤ (List.range n).length := List.length_filter_le _ _
    simp at this
    simp; omega
  · simp
  · exact hi
  · exact hj

theorem Connected.symm (hs : ∀ a b, adj a b = adj b a) {i j : Nat} (h : Connected n adj i j) :
    Connected n adj j i := by
  induction h with
  | refl => exact .refl
  | tail _ h ih =>
    obtain ⟨h1, h2, h3⟩ := h
    exact .head ⟨h2, h1, by rw [hs]; exact h3⟩ ih

/-- Loop invariant of the labelling: `reps` are the first vertices of the components found so far. -/
structure LInv (n : Nat) (adj : Nat → Nat → Bool) (i : Nat) (lab : Nat → Nat) (c : Nat) (reps : List Nat) : Prop where
  lab_iff : ∀ j, j < n → ∀ k, lab j = k + 1 ↔ ∃ r, reps[k]? = some r ∧ Connected n adj r j
  seen : ∀ j, j < i → lab j ≠ 0
  count : c = reps.length + 1
  apart : reps.Pairwise fun a b => ¬ Connected n adj a b
  lt : ∀ r ∈ reps, r < n

theorem linv_init : LInv n adj 0 (fun _ => 0) 1 [] where
  lab_iff := by intro j _ k; simp
  seen := by intro j hj; omega
  count := rfl
  apart := .nil
  lt := by simp

theorem linv_step (hs : ∀ a b, adj a b = adj b a)
    (hcap : ∀ reps : List Nat, (∀ r ∈ reps, r < n) → reps.Pairwise (fun a b => ¬ Connected n adj a b) → reps.length ≤ 255)
    {i : Nat} (hi : i < n) {st : (Nat → Nat) × Nat} {reps : List Nat} (h : LInv n adj i st.1 st.2 reps) :
    ∃ reps', LInv n adj (i + 1) (labelStep n adj st i).1 (labelStep n adj st i).2 reps' := by
  unfold labelStep
  split
  · rename_i h0
    have hfresh : ∀ r ∈ reps, ¬ Connected n adj r i := by
      intro r hr hc
      obtain ⟨k, hk, rfl⟩ := List.getElem_of_mem hr
      have := (h.lab_iff i hi k).2 ⟨_, List.getElem?_eq_getElem hk, hc⟩
      omega
    have hap : (reps ++ [i]).Pairwise fun a b => ¬ Connected n adj a b := by
      rw [List.pairwise_append]
      refine ⟨h.apart, by simp, ?_⟩
      intro a ha b hb
      simp only [List.mem_singleton] at hb
      subst hb; exact hfresh a ha
    have hlt : ∀ r ∈ reps ++ [i], r < n := by
      intro r hr
      simp only [List.mem_append, List.mem_singleton] at hr
      rcases hr with hr | rfl
      · exact h.lt r hr
      · exact hi
    have hlen := hcap _ hlt hap
    simp only [List.length_append, List.length_singleton] at hlen
    have hmod : st.2 % 256 = st.2 := Nat.mod_eq_of_lt (by rw [h.count]; omega)
    refine ⟨reps ++ [i], ?_, ?_, ?_, hap, hlt⟩
    · intro j hj k
      simp only
      rw [hmod]
      by_cases hc : component n adj i j = true
      · rw [if_pos hc]
        rw [component_iff hi hj] at hc
        rw [h.count]
        constructor
        · intro e
          have : k = reps.length := by omega
          subst this
          exact ⟨i, by simp, hc⟩
        · rintro ⟨r, h1, h2⟩
          by_cases hk : k < reps.length
          · exfalso
            rw [List.getElem?_append_left hk] at h1
            exact hfresh r (List.mem_of_getElem? h1) (h2.trans (Connected.symm hs hc))
          · have : k < (reps ++ [i]).length := by
              rw [List.getElem?_eq_some_iff] at h1; exact h1.1
            simp at this; omega
      · rw [if_neg hc, h.lab_iff j hj k]
        rw [component_iff hi hj] at hc
        constructor
        · rintro ⟨r, h1, h2⟩
          have hk : k < reps.length := (List.getElem?_eq_some_iff.1 h1).1
          exact ⟨r, by rw [List.getElem?_append_left hk]; exact h1, h2⟩
        · rintro ⟨r, h1, h2⟩
          by_cases hk : k < reps.length
          · rw [List.getElem?_append_left hk] at h1
            exact ⟨r, h1, h2⟩
          · exfalso
            have : k < (reps ++ [i]).length := by
              rw [List.getElem?_eq_some_iff] at h1; exact h1.1
            simp only [List.length_append, List.length_singleton] at this
            have : k = reps.length := by omega
            subst this
            simp only [List.getElem?_concat_length, Option.some.injEq] at h1
            subst h1; exact hc h2
    · intro j hj
      simp only
      rw [hmod]
      by_cases hc : component n adj i j = true
      · rw [if_pos hc, h.count]; omega
      · rw [if_neg hc]
        have hji : j ≠ i := by
          rintro rfl
          rw [component_iff hi hi] at hc
          exact hc .refl
        exact h.seen j (by omega)
    · simp only [List.length_append, List.length_singleton, h.count]
  · rename_i h0
    refine ⟨reps, h.lab_iff, ?_, h.count, h.apart, h.lt⟩
    intro j hj
    by_cases hji : j = i
    · subst hji; exact h0
    · exact h.seen j (by omega)

theorem linv_fold (hs : ∀ a b, adj a b = adj b a)
    (hcap : ∀ reps : List Nat, (∀ r ∈ reps, r < n) → reps.Pairwise (fun a b => ¬ Connected n adj a b) → reps.length ≤ 255)
    (m : Nat) (hm : m ≤ n) :
    ∃ reps, LInv n adj m ((List.range m).foldl (labelStep n adj) (fun _ => 0, 1)).1
      ((List.range m).foldl (labelStep n adj) (fun _ => 0, 1)).2 reps := by
  induction m with
  | zero => exact ⟨[], linv_init⟩
  | succ m ih =>
    obtain ⟨reps, h⟩ := ih (by omega)
    rw [List.range_succ, List.foldl_append]
    exact linv_step hs hcap (by omega) h

theorem classify_length : (classify n adj).length = n := by
  unfold classify
  split <;> simp

/-- Everything about the labels: they number the representatives. -/
theorem classify_reps (hs : ∀ a b, adj a b = adj b a)
    (hcap : ∀ reps : List Nat, (∀ r ∈ reps, r < n) → reps.Pairwise (fun a b => ¬ Connected n adj a b) → reps.length ≤ 255) :
    ∃ reps : List Nat, (∀ r ∈ reps, r < n) ∧ reps.Pairwise (fun a b => ¬ Connected n adj a b) ∧
      ∀ j, j < n → ∀ k, (classify n adj)[j]? = some k ↔ ∃ r, reps[k]? = some r ∧ Connected n adj r j := by
  unfold classify
  split
  · rename_i hsh
    simp only [Bool.or_eq_true, decide_eq_true_eq, List.all_eq_true, List.mem_range] at hsh
    rcases Nat.eq_zero_or_pos n with rfl | hpos
    · exact ⟨[], by simp, by simp, fun j hj => by omega⟩
    · refine ⟨[0], by simpa using hpos, by simp, ?_⟩
      intro j hj k
      have hc : Connected n adj 0 j := by
        rcases hsh with h | h
        · have : j = 0 := by omega
          subst this; exact .refl
        · exact .single ⟨hpos, hj, h 0 hpos j hj⟩
      simp only [List.getElem?_replicate, hj, if_true, Option.some.injEq]
      constructor
      · rintro rfl; exact ⟨0, rfl, hc⟩
      · rintro ⟨r, h1, _⟩
        have := (List.getElem?_eq_some_iff.1 h1).1
        simp at this; omega
  · obtain ⟨reps, h⟩ := linv_fold hs hcap n (Nat.le_refl n)
    refine ⟨reps, h.lt, h.apart, ?_⟩
    intro j hj k
    have hlen := hcap reps h.lt h.apart
    rw [← h.lab_iff j hj k]
    simp only [List.getElem?_map, List.getElem?_range hj, Option.map_some, Option.some.injEq]
    have h0 := h.seen j hj
    obtain ⟨l, hl⟩ := Nat.exists_eq_succ_of_ne_zero h0
    obtain ⟨r, h1, _⟩ := (h.lab_iff j hj l).1 hl
    have hl2 : l < reps.length := (List.getElem?_eq_some_iff.1 h1).1
    omega

end Graph

end Verif.Components

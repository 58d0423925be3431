import Verif.SdpSolver.Spec
import Mathlib.Data.List.Forall2
/-
Lemmas on the preprocessing.
-/
namespace Verif.SdpSolver
open Verif.State

variable {α β K : Type} [DecidableEq α] [Field K] {n : Nat}

/-- Sums over dictionaries. -/
def gsum (φ : β → K) (d : Dict α β) (v : α → K) : K := (d.map fun t => φ t.2 * v t.1).sum

omit [DecidableEq α] in
theorem lin_eq (d : Dict α K) (v : α → K) : lin d v = gsum id d v := rfl

omit [DecidableEq α] in
theorem gsum_nil (φ : β → K) (v : α → K) : gsum φ ([] : Dict α β) v = 0 := rfl

omit [DecidableEq α] in
theorem gsum_cons (φ : β → K) (a : α) (b : β) (d : Dict α β) (v : α → K) : gsum φ ((a, b) :: d) v = φ b * v a + gsum φ d v := by
  simp [gsum]

theorem gsum_set (φ : β → K) (z : β) (hz : φ z = 0) (d : Dict α β) (k : α) (b : β) (v : α → K) :
    gsum φ (d.set k b) v = gsum φ d v + (φ b - φ ((d.get k).getD z)) * v k := by
  induction d with
  | nil => simp [Dict.set, gsum, hz]
  | cons t d ih =>
    obtain ⟨a, c⟩ := t
    by_cases h : a = k
    · subst h
      simp only [Dict.set, if_true, gsum_cons, get_cons, Option.getD_some]
      ring
    · simp only [Dict.set, h, if_false, gsum_cons, get_cons, ih]
      ring

theorem erase_notMem (d : Dict α β) (k : α) (h : k ∉ d.keys) : d.erase k = d := by
  unfold Dict.erase
  apply List.filter_eq_self.2
  intro t ht
  simp only [Bool.not_eq_true', decide_eq_false_iff_not]
  rintro rfl
  exact h (List.mem_map.2 ⟨t, ht, rfl⟩)

theorem gsum_erase (φ : β → K) (z : β) (hz : φ z = 0) (d : Dict α β) (hd : d.keys.Nodup) (k : α) (v : α → K) :
    gsum φ (d.erase k) v = gsum φ d v - φ ((d.get k).getD z) * v k := by
  induction d with
  | nil => simp [Dict.erase, gsum, hz]
  | cons t d ih =>
    obtain ⟨a, c⟩ := t
    simp only [Dict.keys, List.map_cons, List.nodup_cons] at hd
    by_cases h : a = k
    · subst h
      have : Dict.erase ((a, c) :: d) a = d := by
        unfold Dict.erase
        rw [List.filter_cons_of_neg (by simp)]
        exact erase_notMem d a hd.1
      rw [this, gsum_cons]
      simp only [get_cons, if_true, Option.getD_some]
      ring
    · have : Dict.erase ((a, c) :: d) k = (a, c) :: Dict.erase d k := by
        unfold Dict.erase
        rw [List.filter_cons_of_pos (by simpa using h)]
      rw [this, gsum_cons, gsum_cons, ih hd.2]
      simp only [get_cons, h, if_false]
      ring

theorem mem_erase_keys (d : Dict α β) (k y : α) : y ∈ (d.erase k).keys ↔ y ∈ d.keys ∧ y ≠ k := by
  unfold Dict.erase Dict.keys
  simp only [List.mem_map, List.mem_filter, Bool.not_eq_true', decide_eq_false_iff_not]
  constructor
  · rintro ⟨t, ⟨h1, h2⟩, rfl⟩; exact ⟨⟨t, h1, rfl⟩, h2⟩
  · rintro ⟨⟨t, h1, rfl⟩, h2⟩; exact ⟨t, ⟨h1, h2⟩, rfl⟩

/-! ### Elimination -/

/-- The common form of `elimDict` and `elimMasks`. -/
def gelim (add : β → β → β) (smul : K → β → β) (z : β) (d : Dict α β) (s : α × K × α) : Dict α β :=
  (d.erase s.1).set s.2.2 (add (((d.erase s.1).get s.2.2).getD z) (smul s.2.1 ((d.get s.1).getD z)))

theorem gsum_gelim {add : β → β → β} {smul : K → β → β} {z : β} {φ : β → K} (hz : φ z = 0) (ha : ∀ a b, φ (add a b) = φ a + φ b)
    (hs : ∀ c a, φ (smul c a) = c * φ a) (d : Dict α β) (hd : d.keys.Nodup) (s : α × K × α) (v : α → K) (hv : v s.1 = s.2.1 * v s.2.2) :
    gsum φ (gelim add smul z d s) v = gsum φ d v := by
  unfold gelim
  rw [gsum_set φ z hz, gsum_erase φ z hz d hd, ha, hs, hv]
  ring

theorem gelim_nodup (add : β → β → β) (smul : K → β → β) (z : β) (d : Dict α β) (hd : d.keys.Nodup) (s : α × K × α) :
    (gelim add smul z d s).keys.Nodup := nodup_set _ _ _ (nodup_filter _ _ hd)

theorem mem_gelim_keys (add : β → β → β) (smul : K → β → β) (z : β) (d : Dict α β) (s : α × K × α) (y : α) :
    y ∈ (gelim add smul z d s).keys ↔ y = s.2.2 ∨ (y ∈ d.keys ∧ y ≠ s.1) := by
  unfold gelim
  rw [mem_set_keys, mem_erase_keys]

theorem gelims {add : β → β → β} {smul : K → β → β} {z : β} {φ : β → K} (hz : φ z = 0) (ha : ∀ a b, φ (add a b) = φ a + φ b)
    (hs : ∀ c a, φ (smul c a) = c * φ a) (l : Dict α (K × α)) (d : Dict α β) (hd : d.keys.Nodup) :
    (l.foldl (gelim add smul z) d).keys.Nodup ∧
    (∀ v : α → K, (∀ s ∈ l, v s.1 = s.2.1 * v s.2.2) → gsum φ (l.foldl (gelim add smul z) d) v = gsum φ d v) ∧
    (∀ y ∈ (l.foldl (gelim add smul z) d).keys, y ∈ d.keys ∨ ∃ s ∈ l, y = s.2.2) ∧
    ((∀ s ∈ l, s.2.2 ∉ l.keys) → ∀ y ∈ (l.foldl (gelim add smul z) d).keys, y ∉ l.keys) := by
  induction l using List.reverseRecOn with
  | nil => exact ⟨hd, fun _ _ => rfl, fun y hy => .inl hy, fun _ y _ => by simp [Dict.keys]⟩
  | append_singleton l s ih =>
    simp only [List.foldl_append, List.foldl_cons, List.foldl_nil]
    obtain ⟨h1, h2, h3, h4⟩ := ih
    refine ⟨gelim_nodup _ _ _ _ h1 _, ?_, ?_, ?_⟩
    · intro v hv
      rw [gsum_gelim hz ha hs _ h1 _ v (hv s (by simp)), h2 v fun t ht => hv t (by simp [ht])]
    · intro y hy
      rcases (mem_gelim_keys _ _ _ _ _ _).1 hy with rfl | ⟨hy, _⟩
      · exact .inr ⟨s, by simp, rfl⟩
      · rcases h3 y hy with h | ⟨t, ht, rfl⟩
        · exact .inl h
        · exact .inr ⟨t, by simp [ht], rfl⟩
    · intro ht y hy hmem
      have hkeys : Dict.keys (l ++ [s]) = Dict.keys l ++ [s.1] := by simp [Dict.keys]
      rcases (mem_gelim_keys _ _ _ _ _ _).1 hy with rfl | ⟨hy, hne⟩
      · exact ht s (by simp) hmem
      · rw [hkeys] at hmem
        rcases List.mem_append.1 hmem with h | h
        · exact h4 (fun t htl hk => ht t (by simp [htl]) (by rw [hkeys]; exact List.mem_append_left _ hk)) y hy h
        · exact hne (by simpa using h)

theorem elimDict_eq (s : α × K × α) (d : Dict α K) : elimDict s.1 s.2.1 s.2.2 d = gelim (· + ·) (· * ·) 0 d s := rfl

theorem elimMasks_eq (s : α × K × α) (d : Dict α (Option (Mat n K))) : elimMasks s.1 s.2.1 s.2.2 d = gelim addMat smulMat none d s := rfl

omit [DecidableEq α] in
theorem entry_add (i j : Fin n) (a b : Option (Mat n K)) : entry (addMat a b) i j = entry a i j + entry b i j := by
  cases a <;> cases b <;> simp [addMat, entry]

theorem entry_smul (i j : Fin n) (c : K) (a : Option (Mat n K)) : entry (smulMat c a) i j = c * entry a i j := by
  cases a <;> simp [smulMat, entry]

/-- Elimination of all the semi-known variables in a linear expression. -/
abbrev elimL (l : Dict α (K × α)) (d : Dict α K) : Dict α K := l.foldl (gelim (· + ·) (· * ·) 0) d

/-- Elimination of all the semi-known variables in the masks. -/
abbrev elimM (l : Dict α (K × α)) (d : Dict α (Option (Mat n K))) : Dict α (Option (Mat n K)) := l.foldl (gelim addMat smulMat none) d

theorem elimL_spec (l : Dict α (K × α)) (d : Dict α K) (hd : d.keys.Nodup) :
    (elimL l d).keys.Nodup ∧ (∀ v : α → K, (∀ s ∈ l, v s.1 = s.2.1 * v s.2.2) → lin (elimL l d) v = lin d v) ∧
    (∀ y ∈ (elimL l d).keys, y ∈ d.keys ∨ ∃ s ∈ l, y = s.2.2) ∧
    ((∀ s ∈ l, s.2.2 ∉ l.keys) → ∀ y ∈ (elimL l d).keys, y ∉ l.keys) :=
  gelims (φ := id) rfl (fun _ _ => rfl) (fun _ _ => rfl) l d hd

theorem elimM_spec (l : Dict α (K × α)) (d : Dict α (Option (Mat n K))) (hd : d.keys.Nodup) :
    (elimM l d).keys.Nodup ∧ (∀ v : α → K, (∀ s ∈ l, v s.1 = s.2.1 * v s.2.2) → ∀ i j, gsum (fun F => entry F i j) (elimM l d) v = gsum (fun F => entry F i j) d v) ∧
    (∀ y ∈ (elimM l d).keys, y ∈ d.keys ∨ ∃ s ∈ l, y = s.2.2) ∧
    ((∀ s ∈ l, s.2.2 ∉ l.keys) → ∀ y ∈ (elimM l d).keys, y ∉ l.keys) := by
  have h := fun i j => gelims (φ := fun F : Option (Mat n K) => entry F i j) (z := none) rfl (entry_add i j) (entry_smul i j) l d hd
  refine ⟨?_, fun v hv i j => (h i j).2.1 v hv, ?_, ?_⟩
  · exact (gelims (φ := fun _ : Option (Mat n K) => (0 : K)) (add := addMat) (smul := smulMat) (z := none) rfl (by simp) (by simp) l d hd).1
  · exact (gelims (φ := fun _ : Option (Mat n K) => (0 : K)) (add := addMat) (smul := smulMat) (z := none) rfl (by simp) (by simp) l d hd).2.2.1
  · exact (gelims (φ := fun _ : Option (Mat n K) => (0 : K)) (add := addMat) (smul := smulMat) (z := none) rfl (by simp) (by simp) l d hd).2.2.2

theorem set_ne_nil (d : Dict α β) (k : α) (b : β) : d.set k b ≠ [] := by
  cases d with
  | nil => simp [Dict.set]
  | cons t d =>
    obtain ⟨a, c⟩ := t
    simp only [Dict.set]
    split <;> simp

theorem gelim_ne_nil (add : β → β → β) (smul : K → β → β) (z : β) (d : Dict α β) (s : α × K × α) : gelim add smul z d s ≠ [] := set_ne_nil _ _ _

/-- What the elimination loop computes. -/
theorem elimAll_spec (fl : Flags α) (hm : Bool) (l : Dict α (K × α)) : ∀ (w w' : Work α K n), elimAll fl hm w l = some w' →
    w'.ineqs = w.ineqs.map (elimL l) ∧ w'.eqs = w.eqs.map (elimL l) ∧
    (w'.objective = w.objective ∧ (w.objective = [] ∨ fl.feas = true) ∨ w'.objective = elimL l w.objective ∧ fl.feas = false ∧ w.objective ≠ []) ∧
    w'.masks = (if hm then elimM l w.masks else w.masks) ∧
    ((∀ s ∈ l, s.2.2 ∉ l.keys) → ∀ y, y ∈ w'.vars ↔ (y ∈ w.vars ∨ ∃ s ∈ l, y = s.2.2) ∧ y ∉ l.keys) ∧
    (w.vars.Nodup → w'.vars.Nodup) := by
  induction l with
  | nil =>
    intro w w' h
    simp only [elimAll, Option.some.injEq] at h
    subst h
    refine ⟨(List.map_id _).symm, (List.map_id _).symm, ?_, by simp [elimM], fun _ y => by simp [Dict.keys], fun h => h⟩
    by_cases hf : fl.feas = true
    · exact .inl ⟨rfl, .inr hf⟩
    · by_cases he : w.objective = []
      · exact .inl ⟨rfl, .inl he⟩
      · exact .inr ⟨rfl, by simpa using hf, he⟩
  | cons s l ih =>
    intro w w' h
    obtain ⟨w1, h1, h2⟩ := Option.bind_eq_some_iff.1 h
    unfold elimStep at h1
    split at h1
    · rename_i hmem
      simp only [Option.some.injEq] at h1
      obtain ⟨i1, i2, i3, i4, i5, i6⟩ := ih w1 w' h2
      subst h1
      simp only at i1 i2 i3 i4 i5 i6
      refine ⟨?_, ?_, ?_, ?_, ?_, ?_⟩
      · rw [i1, List.map_map]; rfl
      · rw [i2, List.map_map]; rfl
      · by_cases hf : fl.feas = true
        · rw [hf] at i3
          simp only [Bool.not_true, Bool.and_false, Bool.false_eq_true, if_false] at i3
          rcases i3 with ⟨i3, _⟩ | ⟨_, i3, _⟩
          · exact .inl ⟨i3, .inr hf⟩
          · exact absurd i3 (by simp)
        · have hf' : fl.feas = false := by simpa using hf
          rw [hf'] at i3
          by_cases he : w.objective = []
          · left
            rw [he] at i3
            simp only [List.isEmpty_nil, Bool.not_true, Bool.false_and, Bool.false_eq_true, if_false] at i3
            rcases i3 with ⟨i3, _⟩ | ⟨_, _, i3⟩
            · exact ⟨by rw [i3, he], .inl he⟩
            · exact absurd rfl i3
          · right
            have : w.objective.isEmpty = false := by simpa using he
            rw [this] at i3
            simp only [Bool.not_false, Bool.and_self, if_true] at i3
            rcases i3 with ⟨_, i3⟩ | ⟨i3, _⟩
            · rcases i3 with i3 | i3
              · exact absurd i3 (gelim_ne_nil _ _ _ _ _)
              · exact absurd i3 (by simp)
            · exact ⟨i3, hf', he⟩
      · rw [i4]
        cases hm <;> rfl
      · intro ht y
        have hkeys : Dict.keys (s :: l) = s.1 :: Dict.keys l := rfl
        rw [i5 (fun t htl hk => ht t (List.mem_cons_of_mem _ htl) (by rw [hkeys]; exact List.mem_cons_of_mem _ hk)) y, hkeys]
        have hs2 : s.2.2 ≠ s.1 := fun e => ht s List.mem_cons_self (by rw [hkeys, e]; exact List.mem_cons_self)
        have hv : y ∈ (if s.2.2 ∈ w.vars.filter (fun y => !decide (y = s.1)) then w.vars.filter (fun y => !decide (y = s.1))
            else w.vars.filter (fun y => !decide (y = s.1)) ++ [s.2.2]) ↔ (y ∈ w.vars ∧ y ≠ s.1) ∨ y = s.2.2 := by
          split
          · rename_i hin
            simp only [List.mem_filter, Bool.not_eq_true', decide_eq_false_iff_not] at hin ⊢
            constructor
            · exact .inl
            · rintro (h | rfl)
              · exact h
              · exact hin
          · simp
        rw [hv]
        simp only [List.mem_cons, not_or, exists_eq_or_imp]
        have hl : ∀ t ∈ l, t.2.2 ≠ s.1 := fun t htl e => ht t (List.mem_cons_of_mem _ htl) (by rw [hkeys, e]; exact List.mem_cons_self)
        constructor
        · rintro ⟨(⟨h1, h2⟩ | rfl) | ⟨t, ht, rfl⟩, h3⟩
          · exact ⟨.inl h1, h2, h3⟩
          · exact ⟨.inr (.inl rfl), hs2, h3⟩
          · exact ⟨.inr (.inr ⟨t, ht, rfl⟩), hl t ht, h3⟩
        · rintro ⟨h1 | rfl | ⟨t, ht, rfl⟩, h2, h3⟩
          · exact ⟨.inl (.inl ⟨h1, h2⟩), h3⟩
          · exact ⟨.inl (.inr rfl), h3⟩
          · exact ⟨.inr ⟨t, ht, rfl⟩, h3⟩
      · intro hn
        apply i6
        have hf := hn.filter (fun y => !decide (y = s.1))
        split
        · exact hf
        · rename_i hnot
          exact List.nodup_append.2 ⟨hf, by simp, by
            intro a ha b hb e
            have : b = s.2.2 := by simpa using hb
            subst this
            rw [e] at ha
            exact hnot ha⟩
    · exact absurd h1 (by simp)

end Verif.SdpSolver

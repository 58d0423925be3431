import Verif.Canon.Model
import Verif.Canon.Spec
import Verif.Common.SortLemmas
/-! Helper lemmas for the canonical-form properties. -/
namespace Verif.Canon
open Spec

theorem ascending_perm (w : List Nat) : (ascending w).Perm w := Common.sortBy_perm _ _

theorem ascending_sorted (w : List Nat) : (ascending w).Pairwise (· ≤ ·) :=
  (Common.sortBy_sorted _ (fun a b => by simp; omega) (fun a b c => by simp; omega) w).imp (by simp)

/-! ### CommEq basics -/
section CommEq
variable {comm : Nat → Nat → Prop}

theorem Spec.CommEq.cons (x : Nat) {u v : List Nat} (h : CommEq comm u v) :
    CommEq comm (x :: u) (x :: v) := by
  induction h with
  | refl w => exact .refl _
  | symm _ ih => exact .symm ih
  | trans _ _ ih1 ih2 => exact .trans ih1 ih2
  | swap u a b v hc => exact CommEq.swap (x :: u) a b v hc

theorem Spec.CommEq.append_left (p : List Nat) {u v : List Nat} (h : CommEq comm u v) :
    CommEq comm (p ++ u) (p ++ v) := by
  induction p with
  | nil => exact h
  | cons x p ih => exact ih.cons x

theorem Spec.CommEq.append_right (s : List Nat) {u v : List Nat} (h : CommEq comm u v) :
    CommEq comm (u ++ s) (v ++ s) := by
  induction h with
  | refl w => exact .refl _
  | symm _ ih => exact .symm ih
  | trans _ _ ih1 ih2 => exact .trans ih1 ih2
  | swap u a b v hc => simpa using CommEq.swap u a b (v ++ s) hc

theorem Spec.CommEq.perm {u v : List Nat} (h : CommEq comm u v) : u.Perm v := by
  induction h with
  | refl w => exact .refl _
  | symm _ ih => exact ih.symm
  | trans _ _ ih1 ih2 => exact ih1.trans ih2
  | swap u a b v hc => exact (List.Perm.swap b a v).append_left u

/-- Moving a letter to the front across letters it commutes with. -/
theorem Spec.CommEq.move_front (p : List Nat) (c : Nat) (s : List Nat)
    (h : ∀ b ∈ p, comm c b) : CommEq comm (p ++ c :: s) (c :: (p ++ s)) := by
  induction p with
  | nil => exact .refl _
  | cons b p ih =>
    have h1 : CommEq comm (b :: (p ++ c :: s)) (b :: c :: (p ++ s)) :=
      (ih fun b' hb' => h b' (List.mem_cons_of_mem _ hb')).cons b
    exact h1.trans (CommEq.symm (CommEq.swap [] c b (p ++ s) (h b (by simp))))

/-- A permutation of mutually commuting letters is a commutation equivalence. -/
theorem Spec.CommEq.of_perm {u v : List Nat} (h : u.Perm v)
    (hc : ∀ a ∈ u, ∀ b ∈ u, comm a b) : CommEq comm u v := by
  induction h with
  | nil => exact .refl _
  | cons x _ ih =>
    exact (ih fun a ha b hb => hc a (by simp [ha]) b (by simp [hb])).cons x
  | swap x y l => exact CommEq.swap [] y x l (hc y (by simp) x (by simp))
  | trans h1 _ ih1 ih2 =>
    exact (ih1 hc).trans (ih2 fun a ha b hb => hc a (h1.mem_iff.2 ha) b (h1.mem_iff.2 hb))

end CommEq

/-! ### OpEq contains CommEq -/
theorem Spec.OpEq.of_commEq {N : Nat} {comm ortho : Nat → Nat → Prop} {u v : List Nat}
    (h : CommEq comm u v) : OpEq N comm ortho u v := by
  induction h with
  | refl w => exact .refl _
  | symm _ ih => exact .symm ih
  | trans _ _ ih1 ih2 => exact .trans ih1 ih2
  | swap u a b v hc => exact OpEq.swap u a b v hc


/-! ### Letters that can be moved to the front -/

/-- `c` occurs in the word with only letters it commutes with before it. -/
def firstable (nc : BMat) (c : Nat) : List Nat → Prop
  | [] => False
  | b :: t => c = b ∨ (nc c b = false ∧ firstable nc c t)

theorem firstable_mem {nc : BMat} {c : Nat} {w : List Nat} (h : firstable nc c w) : c ∈ w := by
  induction w with
  | nil => exact h.elim
  | cons b t ih =>
    rcases h with h | ⟨_, h⟩
    · simp [h]
    · simp [ih h]

theorem firstable_snoc (nc : BMat) (c d : Nat) (w : List Nat) :
    firstable nc c (w ++ [d]) ↔ firstable nc c w ∨ (c = d ∧ ∀ b ∈ w, nc c b = false) := by
  induction w with
  | nil => simp [firstable]
  | cons b t ih =>
    simp only [List.cons_append, firstable, ih, List.mem_cons, forall_eq_or_imp]
    constructor
    · rintro (h | ⟨h, h' | h'⟩)
      · exact .inl (.inl h)
      · exact .inl (.inr ⟨h, h'⟩)
      · exact .inr ⟨h'.1, h, h'.2⟩
    · rintro ((h | h) | h)
      · exact .inl h
      · exact .inr ⟨h.1, .inl h.2⟩
      · exact .inr ⟨h.2.1, .inr ⟨h.1, h.2.2⟩⟩

theorem firstable_of_mem_all {nc : BMat} {c : Nat} {w : List Nat} (h : c ∈ w)
    (ha : ∀ b ∈ w, nc c b = false) : firstable nc c w := by
  induction w with
  | nil => simp at h
  | cons b t ih =>
    rcases List.mem_cons.1 h with h | h
    · exact .inl h
    · exact .inr ⟨ha b (by simp), ih h fun b hb => ha b (by simp [hb])⟩

theorem firstable_split {nc : BMat} {c : Nat} {w : List Nat} (h : firstable nc c w) :
    ∃ p s, w = p ++ c :: s ∧ c ∉ p ∧ ∀ b ∈ p, nc c b = false := by
  induction w with
  | nil => exact h.elim
  | cons b t ih =>
    by_cases hcb : c = b
    · exact ⟨[], t, by simp [hcb], by simp, by simp⟩
    · rcases h with h | ⟨h1, h2⟩
      · exact absurd h hcb
      · obtain ⟨p, s, e, hp, ha⟩ := ih h2
        exact ⟨b :: p, s, by simp [e], by simp [hp, hcb], by simp [h1]; exact ha⟩

/-- The commutation relation described by a `notcomm` matrix. -/
def Comm (nc : BMat) (a b : Nat) : Prop := nc a b = false

theorem firstable_move {nc : BMat} {c : Nat} {w : List Nat} (h : firstable nc c w) :
    CommEq (Comm nc) w (c :: w.erase c) := by
  obtain ⟨p, s, e, hp, ha⟩ := firstable_split h
  subst e
  rw [List.erase_append_right _ hp, List.erase_cons_head]
  exact CommEq.move_front p c s ha

/-! ### The scan -/

/-- Invariant of the scan: the current choice is the first occurrence of the smallest
letter that can be moved to the front. -/
def ScanInv (nc : BMat) (pre : List Nat) (r : Nat × Nat) : Prop :=
  (∃ p s, pre = p ++ r.1 :: s ∧ p.length = r.2 ∧ r.1 ∉ p ∧ ∀ b ∈ p, nc r.1 b = false) ∧
  ∀ c, firstable nc c pre → r.1 ≤ c

theorem scanMin_inv (nc : BMat) (pre rest : List Nat) (acc : Nat × Nat)
    (h : ScanInv nc pre acc) :
    ScanInv nc (pre ++ rest) (scanMin nc pre rest pre.length acc) := by
  induction rest generalizing pre acc with
  | nil => simpa [scanMin] using h
  | cons c rest ih =>
    obtain ⟨m, i⟩ := acc
    rw [scanMin]
    have key := ih (pre ++ [c]) (if pre.any (fun b => nc c b) then (m, i)
       else if c < m then (c, pre.length) else (m, i))
    simp only [List.append_assoc, List.cons_append, List.nil_append, List.length_append,
      List.length_cons, List.length_nil] at key
    apply key
    obtain ⟨⟨p, s, e, hl, hnm, hall⟩, hmin⟩ := h
    dsimp only at *
    have ext : ScanInv nc (pre ++ [c]) (m, i) ∨ (c < m ∧ ∀ b ∈ pre, nc c b = false) := by
      by_cases hc : c < m ∧ ∀ b ∈ pre, nc c b = false
      · exact .inr hc
      · refine .inl ⟨⟨p, s ++ [c], by simp [e], hl, hnm, hall⟩, ?_⟩
        intro d hd
        rcases (firstable_snoc nc d c pre).1 hd with h | ⟨rfl, h⟩
        · exact hmin d h
        · dsimp only; exact Nat.not_lt.1 fun hlt => hc ⟨hlt, h⟩
    split
    · rename_i hany
      rcases ext with h | ⟨_, h⟩
      · exact h
      · simp only [List.any_eq_true] at hany
        obtain ⟨b, hb, hb'⟩ := hany
        simp [h b hb] at hb'
    · rename_i hany
      simp only [List.any_eq_true, not_exists, not_and, Bool.not_eq_true] at hany
      split
      · rename_i hlt
        refine ⟨⟨pre, [], by simp, rfl, ?_, hany⟩, ?_⟩
        · intro hmem
          have := hmin c (firstable_of_mem_all hmem hany)
          omega
        · intro d hd
          rcases (firstable_snoc nc d c pre).1 hd with h | ⟨rfl, h⟩
          · have := hmin d h; dsimp only; omega
          · exact Nat.le_refl _
      · rename_i hlt
        rcases ext with h | ⟨h, _⟩
        · exact h
        · exact absurd h hlt

/-- Characterisation of one step in the general branch. -/
theorem scan_result (nc : BMat) (a : Nat) (t : List Nat) :
    let r := scanMin nc [a] t 1 (a, 0)
    firstable nc r.1 (a :: t) ∧ (∀ c, firstable nc c (a :: t) → r.1 ≤ c) ∧
      (a :: t).getD r.2 0 = r.1 ∧ (a :: t).eraseIdx r.2 = (a :: t).erase r.1 ∧ r.1 ≤ a := by
  intro r
  have h0 : ScanInv nc [a] (a, 0) :=
    ⟨⟨[], [], rfl, rfl, by simp, by simp⟩, by
      intro c hc; rcases hc with h | ⟨_, h⟩
      · exact Nat.le_of_eq h.symm
      · exact h.elim⟩
  have h := scanMin_inv nc [a] t (a, 0) h0
  simp only [List.length_cons, List.length_nil, List.cons_append, List.nil_append] at h
  have hr : scanMin nc [a] t (0 + 1) (a, 0) = r := rfl
  rw [hr] at h
  obtain ⟨⟨p, s, e, hl, hnm, hall⟩, hmin⟩ := h
  refine ⟨?_, hmin, ?_, ?_, hmin a (.inl rfl)⟩
  · rw [e]
    clear e hmin hl hr
    induction p with
    | nil => exact .inl rfl
    | cons b p ih =>
      exact .inr ⟨hall b (by simp), ih (fun h => hnm (by simp [h])) fun b hb => hall b (by simp [hb])⟩
  · rw [e, ← hl]; simp
  · rw [e, ← hl, List.erase_append_right _ hnm, List.erase_cons_head,
      List.eraseIdx_append_of_length_le (Nat.le_refl _)]; simp

/-! ### Unfolding the main loop -/

theorem subAny_false {nc : BMat} {w : List Nat} (h : subAny nc w = false) :
    ∀ a ∈ w, ∀ b ∈ w, nc a b = false := by
  intro a ha b hb
  simp only [subAny, List.any_eq_false, Bool.not_eq_true] at h
  exact h a ha b hb

/-- Case description of `lexmonToCanonical` on words of length at least two. -/
theorem canon_cases (nc : BMat) (w : List Nat) (hw : 2 ≤ w.length) :
    (subAll nc w = true ∧ lexmonToCanonical nc w = w) ∨
    (subAny nc w = false ∧ lexmonToCanonical nc w = ascending w) ∨
    (subAll nc w = false ∧ subAny nc w = true ∧ ∃ c, firstable nc c w ∧ (∀ d, firstable nc d w → c ≤ d) ∧
      lexmonToCanonical nc w = c :: lexmonToCanonical nc (w.erase c)) := by
  match w, hw with
  | a :: b :: t, _ =>
    rw [lexmonToCanonical]
    have hs := scan_result nc a (b :: t)
    rw [splitStep]
    by_cases h1 : subAll nc (a :: b :: t) = true
    · left; simp [h1, lexmonToCanonical]
    · right
      by_cases h2 : subAny nc (a :: b :: t) = true
      · right
        simp only [Bool.not_eq_true] at h1
        simp only [h1, h2, true_and]
        obtain ⟨hf, hmin, hg, he, hle⟩ := hs
        refine ⟨_, hf, hmin, ?_⟩
        simp only [hle, Bool.false_eq_true, if_false, Bool.not_true, if_true, hg, he,
          List.cons_append, List.nil_append]
      · left
        simp only [Bool.not_eq_true] at h1 h2
        simp [h1, h2, lexmonToCanonical]

/-- Induction principle following the algorithm. -/
theorem canon_induction {nc : BMat} {P : List Nat → List Nat → Prop}
    (nil : P [] []) (one : ∀ a, P [a] [a])
    (all : ∀ w, 2 ≤ w.length → subAll nc w = true → P w w)
    (none : ∀ w, 2 ≤ w.length → subAny nc w = false → P w (ascending w))
    (step : ∀ w c, 2 ≤ w.length → subAll nc w = false → subAny nc w = true → firstable nc c w →
      (∀ d, firstable nc d w → c ≤ d) →
      P (w.erase c) (lexmonToCanonical nc (w.erase c)) →
      P w (c :: lexmonToCanonical nc (w.erase c))) (w : List Nat) :
    P w (lexmonToCanonical nc w) := by
  generalize hn : w.length = n
  induction n using Nat.strongRecOn generalizing w with
  | _ n ih =>
    match w, hn with
    | [], _ => simpa [lexmonToCanonical] using nil
    | [a], _ => simpa [lexmonToCanonical] using one a
    | a :: b :: t, hn =>
      have h2 : 2 ≤ (a :: b :: t).length := by simp
      rcases canon_cases nc (a :: b :: t) h2 with ⟨h, e⟩ | ⟨h, e⟩ | ⟨h, h', c, hf, hm, e⟩
      · rw [e]; exact all _ h2 h
      · rw [e]; exact none _ h2 h
      · rw [e]
        apply step _ c h2 h h' hf hm
        apply ih _ _ _ rfl
        have := List.length_erase_of_mem (firstable_mem hf)
        rw [this]; simp only [List.length_cons] at hn ⊢; omega

end Verif.Canon

import Verif.SdpEnd.Distribution
import Verif.Positivity.HermitianProps
/-!
The words of the semidefinite program cannot be simplified: canonical forms, the monomials of the moment matrix and their factors are reduced words.
-/
namespace Verif.SdpNames
open Verif.Common Verif.Canon Verif.Canon.Spec Verif.Scenario Verif.Components Verif.Moment Verif.MomentMatrix Verif.SymMM Verif.SdpRepr Verif.SdpEnd
open Verif.State (Dict Mon)
open Verif.EndToEnd (Input)

variable {N : Nat} {nc om : BMat} {meas : Nat → Nat}

theorem reduced_small {w : List Nat} (h : w.length ≤ 1) : Reduced nc om w := by
  intro u a b v e
  have := e.perm.length_eq
  simp at this
  omega

theorem removeSquares_length (w : List Nat) : (removeSquares w).length ≤ w.length := by
  fun_induction removeSquares w with
  | case1 => simp
  | case2 => simp
  | case3 b t ih => simp at ih ⊢; omega
  | case4 a b t hne ih => simp at ih ⊢; omega

theorem removeSquares_subset (w : List Nat) : ∀ x ∈ removeSquares w, x ∈ w := by
  fun_induction removeSquares w with
  | case1 => simp
  | case2 => simp
  | case3 b t ih => intro x hx; exact List.mem_cons_of_mem _ (ih x hx)
  | case4 a b t hne ih =>
    intro x hx
    rcases List.mem_cons.1 hx with rfl | hx
    · simp
    · exact List.mem_cons_of_mem _ (ih x hx)

theorem toCanonical_length (w : List Nat) : (toCanonical nc om false false w).length ≤ w.length := by
  rw [toCanonical_eq]
  refine (removeSquares_length _).trans ?_
  have := (canon_sound nc w).perm.length_eq
  split
  · rename_i h
    have h2 : 2 ≤ (lexmonToCanonical nc w).length := by
      rcases hl : lexmonToCanonical nc w with _ | ⟨a, _ | ⟨b, t⟩⟩
      · rw [hl] at h; simp [hasOrthoPair] at h
      · rw [hl] at h; simp [hasOrthoPair] at h
      · simp
    simp; omega
  · omega

/-- Canonical forms cannot be simplified. -/
theorem reduced_canonical (H : OperatorList N nc om meas) {w : List Nat} (hw : ∀ x ∈ w, x < N) : Reduced nc om (toCanonical nc om false false w) := by
  set c := toCanonical nc om false false w with hc
  by_cases hl : c.length ≤ 1
  · exact reduced_small hl
  have hidem : toCanonical nc om false false c = c := C04_canonical_idempotent nc om H.nc_symm H.nc_diag false w
  have hrange : ∀ x ∈ c, x < N := (toCanonical_opEq_eq H ((C03_canonical_decides_operator_equality H c w (by
    intro x hx
    rw [hc, toCanonical_eq] at hx
    have hx := removeSquares_subset _ x hx
    split at hx
    · simp at hx; rw [hx]; exact H.pos
    · exact hw x ((canon_sound nc w).perm.mem_iff.2 hx)) hw).1 (by rw [hidem]))).1.2 hw
  intro u a b v e
  have hlen : (u ++ a :: b :: v).length = c.length := e.perm.length_eq.symm
  have hr' : ∀ x ∈ u ++ a :: b :: v, x < N := fun x hx => hrange x (e.perm.mem_iff.2 hx)
  have hop : OpEq N (fun a b => nc a b = false) (fun a b => om a b = true) c (u ++ a :: b :: v) := OpEq.of_commEq e
  have key : ∀ z : List Nat, OpEq N (fun a b => nc a b = false) (fun a b => om a b = true) (u ++ a :: b :: v) z → z.length < c.length → False := by
    intro z hz hl'
    have := (toCanonical_opEq_eq H (hop.trans hz)).2 hrange
    rw [hidem] at this
    have h2 := toCanonical_length (nc := nc) (om := om) z
    rw [← this] at h2
    omega
  have hab : om a b = false := by
    by_contra h
    exact key [0] (.zero u a b v hr' (by simpa using h)) (by simp; omega)
  refine ⟨?_, hab, ?_⟩
  · rintro rfl
    exact key (u ++ a :: v) (.idem u a v) (by simp at hlen ⊢; omega)
  · by_contra h
    have ha := hr' a (by simp)
    have hb := hr' b (by simp)
    have h1 := (H.ortho_iff b a hb ha).1 (by simpa using h)
    have h2 : om a b = true := (H.ortho_iff a b ha hb).2 (by
      rcases h1 with h | h | ⟨h1, h2⟩
      · exact .inr (.inl h)
      · exact .inl h
      · exact .inr (.inr ⟨fun e => h1 e.symm, h2.symm⟩))
    rw [hab] at h2
    cases h2

/-- Moving the letters of one class to the front. -/
theorem commEq_filter (p : Nat → Bool) (w : List Nat) (hc : ∀ a ∈ w, ∀ b ∈ w, p a = true → p b = false → nc a b = false) (hsym : ∀ a b, nc a b = nc b a) :
    CommEq (fun a b => nc a b = false) w (w.filter p ++ w.filter fun a => !p a) := by
  induction w with
  | nil => exact .refl _
  | cons a w ih =>
    have hih := ih fun x hx y hy => hc x (List.mem_cons_of_mem _ hx) y (List.mem_cons_of_mem _ hy)
    have h0 : CommEq (fun a b => nc a b = false) (a :: w) (a :: (w.filter p ++ w.filter fun a => !p a)) := CommEq.append_left [a] hih
    cases hp : p a with
    | true => simpa [hp] using h0
    | false =>
      have hmove : ∀ l : List Nat, (∀ x ∈ l, nc x a = false) → ∀ v, CommEq (fun a b => nc a b = false) (a :: (l ++ v)) (l ++ a :: v) := by
        intro l
        induction l with
        | nil => intro _ v; exact .refl _
        | cons x l ih =>
          intro h v
          have h1 : CommEq (fun a b => nc a b = false) ([] ++ a :: x :: (l ++ v)) ([] ++ x :: a :: (l ++ v)) := .swap [] a x (l ++ v) (by rw [hsym]; exact h x (by simp))
          exact h1.trans (CommEq.append_left [x] (ih (fun y hy => h y (List.mem_cons_of_mem _ hy)) v))
      have := h0.trans (hmove (w.filter p) (fun x hx => by
        obtain ⟨h1, h2⟩ := List.mem_filter.1 hx
        exact hc x (List.mem_cons_of_mem _ h1) a (by simp) h2 hp) _)
      simpa [hp] using this

theorem reduced_prefix {u v : List Nat} (h : Reduced nc om (u ++ v)) : Reduced nc om u := by
  intro x a b y e
  apply h x a b (y ++ v)
  have := CommEq.append_right v e
  simpa using this

end Verif.SdpNames

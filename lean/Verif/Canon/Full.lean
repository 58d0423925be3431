import Verif.Canon.Normal
/-! The full canonical form decides equality modulo commutation, idempotence and orthogonality. -/
namespace Verif.Canon
open Spec

/-! ### Absorbing repeated letters -/

/-- Remove the copies of `a` that can be moved to the front of the word. -/
def strip (nc : BMat) (a : Nat) : List Nat → List Nat
  | [] => []
  | c :: t => if c = a then strip nc a t else if nc a c = false then c :: strip nc a t else c :: t

/-- Absorb every letter into an equal earlier one reachable by commutations. -/
def absorb (nc : BMat) : List Nat → List Nat
  | [] => []
  | a :: t => a :: strip nc a (absorb nc t)

theorem strip_idem (nc : BMat) (a : Nat) (t : List Nat) :
    strip nc a (strip nc a t) = strip nc a t := by
  induction t with
  | nil => rfl
  | cons c t ih =>
    simp only [strip]
    split
    · exact ih
    · rename_i hne
      split
      · rename_i hc; simp [strip, hne, hc, ih]
      · rename_i hc; simp [strip, hne, hc]

theorem strip_strip (nc : BMat) {x y : Nat} (hxy : x ≠ y) (hc : nc x y = false) (hc' : nc y x = false)
    (t : List Nat) : strip nc x (strip nc y t) = strip nc y (strip nc x t) := by
  induction t with
  | nil => rfl
  | cons b t ih =>
    by_cases hbx : b = x
    · subst hbx
      simp [strip, hxy, hc', ih]
    · by_cases hby : b = y
      · subst hby
        simp [strip, hbx, hc, ih]
      · by_cases h1 : nc x b = false <;> by_cases h2 : nc y b = false <;>
          simp [strip, hbx, hby, h1, h2, ih]

theorem strip_commEq {nc : BMat} (hsym : ∀ a b, nc a b = nc b a) (a : Nat) {u v : List Nat}
    (h : CommEq (Comm nc) u v) : CommEq (Comm nc) (strip nc a u) (strip nc a v) := by
  induction h with
  | refl w => exact .refl _
  | symm _ ih => exact ih.symm
  | trans _ _ ih1 ih2 => exact ih1.trans ih2
  | swap u x y v hxy =>
    have hxy' : nc x y = false := hxy
    have hyx' : nc y x = false := by rw [hsym]; exact hxy
    induction u with
    | nil =>
      simp only [List.nil_append]
      by_cases hx : x = a
      · subst hx
        by_cases hy : y = x
        · subst hy; exact .refl _
        · simp [strip, hy, hxy']; exact .refl _
      · by_cases hy : y = a
        · subst hy
          simp [strip, hx, hyx']; exact .refl _
        · by_cases h1 : nc a x = false <;> by_cases h2 : nc a y = false <;>
            simp only [strip, hx, hy, h1, h2, if_true, if_false] <;>
            exact CommEq.swap [] x y _ hxy
    | cons b u ih =>
      simp only [List.cons_append, strip]
      split
      · exact ih
      · split
        · exact ih.cons b
        · exact CommEq.swap (b :: u) x y v hxy

theorem absorb_commEq {nc : BMat} (hsym : ∀ a b, nc a b = nc b a) {u v : List Nat}
    (h : CommEq (Comm nc) u v) : CommEq (Comm nc) (absorb nc u) (absorb nc v) := by
  induction h with
  | refl w => exact .refl _
  | symm _ ih => exact ih.symm
  | trans _ _ ih1 ih2 => exact ih1.trans ih2
  | swap u x y v hxy =>
    have hxy' : nc x y = false := hxy
    have hyx' : nc y x = false := by rw [hsym]; exact hxy
    induction u with
    | nil =>
      simp only [List.nil_append, absorb]
      by_cases hx : x = y
      · subst hx; exact .refl _
      · have hx' : ¬ y = x := fun h => hx h.symm
        simp only [strip, hx, hx', hxy', hyx', if_true, if_false]
        rw [strip_strip nc hx hxy' hyx']
        exact CommEq.swap [] x y _ hxy
    | cons b u ih =>
      simp only [List.cons_append, absorb]
      exact (strip_commEq hsym b ih).cons b

theorem absorb_idem (nc : BMat) (u : List Nat) (a : Nat) (v : List Nat) :
    absorb nc (u ++ a :: a :: v) = absorb nc (u ++ a :: v) := by
  induction u with
  | nil => simp [absorb, strip, strip_idem]
  | cons b u ih => simp [absorb, ih]

/-! ### removeSquares on normal words -/

theorem removeSquares_head (a : Nat) (t : List Nat) :
    ∃ T, removeSquares (a :: t) = a :: T := by
  induction t generalizing a with
  | nil => exact ⟨[], rfl⟩
  | cons b t ih =>
    rw [removeSquares]
    split
    · rename_i h; subst h; exact ih b
    · exact ⟨_, rfl⟩

theorem firstable_removeSquares (nc : BMat) (c : Nat) (w : List Nat) :
    firstable nc c (removeSquares w) ↔ firstable nc c w := by
  fun_induction removeSquares w with
  | case1 => rfl
  | case2 a => rfl
  | case3 b t ih =>
    rw [ih]
    simp only [firstable]
    constructor
    · rintro (h | h)
      · exact .inl h
      · exact .inr ⟨h.1, .inr h⟩
    · rintro (h | ⟨_, h⟩)
      · exact .inl h
      · exact h
  | case4 a b t hne ih =>
    rw [firstable, ih, ← firstable]

theorem normal_removeSquares {nc : BMat} {w : List Nat} (h : Normal nc w) :
    Normal nc (removeSquares w) := by
  fun_induction removeSquares w with
  | case1 => exact h
  | case2 a => exact h
  | case3 b t ih => exact ih h.2
  | case4 a b t hne ih =>
    refine ⟨?_, ih h.2⟩
    intro c hc
    exact h.1 c ((firstable_removeSquares nc c _).1 hc)

/-- No two neighbours are equal. -/
def NoRep : List Nat → Prop
  | [] => True
  | [_] => True
  | a :: b :: t => a ≠ b ∧ NoRep (b :: t)

theorem noRep_removeSquares (w : List Nat) : NoRep (removeSquares w) := by
  fun_induction removeSquares w with
  | case1 => trivial
  | case2 a => trivial
  | case3 b t ih => exact ih
  | case4 a b t hne ih =>
    obtain ⟨T, hT⟩ := removeSquares_head b t
    rw [hT] at ih ⊢
    exact ⟨fun h => hne h.symm, ih⟩

theorem strip_of_not_firstable {nc : BMat} {a : Nat} {t : List Nat} (h : ¬ firstable nc a t) :
    strip nc a t = t := by
  induction t with
  | nil => rfl
  | cons c t ih =>
    simp only [firstable, not_or, not_and] at h
    simp only [strip]
    rw [if_neg (fun h' => h.1 h'.symm)]
    split
    · rename_i hc; rw [ih (h.2 hc)]
    · rfl

theorem strip_normal {nc : BMat} (hsym : ∀ a b, nc a b = nc b a) {a : Nat} {t : List Nat}
    (hn : Normal nc (a :: t)) (hr : NoRep (a :: t)) : strip nc a t = t := by
  apply strip_of_not_firstable
  intro hf
  match t with
  | [] => exact hf
  | c :: t =>
    have hac : a ≠ c := hr.1
    rcases hf with hf | ⟨h1, h2⟩
    · exact hac hf
    · have l1 : a ≤ c := hn.1 c (.inl rfl) (by rw [hsym]; exact h1)
      have l2 : c ≤ a := hn.2.1 a h2 h1
      omega

theorem absorb_normal {nc : BMat} (hsym : ∀ a b, nc a b = nc b a) {w : List Nat}
    (h : Normal nc w) : absorb nc w = removeSquares w := by
  induction w with
  | nil => rfl
  | cons a t ih =>
    rw [absorb, ih h.2]
    match t with
    | [] => rfl
    | b :: t =>
      have hN := normal_removeSquares h
      have hR := noRep_removeSquares (a :: b :: t)
      rw [removeSquares] at hN hR ⊢
      by_cases hba : b = a
      · subst hba
        simp only [if_true] at hN hR ⊢
        obtain ⟨T, hT⟩ := removeSquares_head b t
        rw [hT] at hN hR ⊢
        simp only [strip, if_true]
        rw [strip_normal hsym hN hR]
      · simp only [hba, if_false] at hN hR ⊢
        rw [strip_normal hsym hN hR]

/-- `removeSquares` of the normal form is the normal form of the absorbed word. -/
theorem removeSquares_canon {nc : BMat} (hsym : ∀ a b, nc a b = nc b a)
    (hdiag : ∀ a, nc a a = false) (w : List Nat) :
    removeSquares (lexmonToCanonical nc w) = lexmonToCanonical nc (absorb nc w) := by
  have hn := canon_normal hsym hdiag w
  have h1 : CommEq (Comm nc) (absorb nc w) (removeSquares (lexmonToCanonical nc w)) := by
    rw [← absorb_normal hsym hn]
    exact absorb_commEq hsym (canon_sound nc w)
  rw [canon_complete hsym hdiag h1, canon_of_normal hsym hdiag (normal_removeSquares hn)]

theorem removeSquares_canon_idem {nc : BMat} (hsym : ∀ a b, nc a b = nc b a)
    (hdiag : ∀ a, nc a a = false) (u : List Nat) (a : Nat) (v : List Nat) :
    removeSquares (lexmonToCanonical nc (u ++ a :: a :: v)) =
      removeSquares (lexmonToCanonical nc (u ++ a :: v)) := by
  rw [removeSquares_canon hsym hdiag, removeSquares_canon hsym hdiag, absorb_idem]

/-! ### Zeros -/

/-- Some operator orthogonal to `a` can be moved to the front. -/
def hit (nc om : BMat) (a : Nat) : List Nat → Prop
  | [] => False
  | c :: t => om c a = true ∨ (nc a c = false ∧ hit nc om a t)

/-- Two orthogonal operators can be made neighbours. -/
def vanish (nc om : BMat) : List Nat → Prop
  | [] => False
  | a :: t => hit nc om a t ∨ vanish nc om t

section
variable {N : Nat} {nc om : BMat} {meas : Nat → Nat} (H : OperatorList N nc om meas)
include H

/-- letters of a word are genuine non-zero operators -/
def Good (N : Nat) (w : List Nat) : Prop := ∀ x ∈ w, 0 < x ∧ x < N

omit H in
theorem Good.tail {N a : Nat} {t : List Nat} (h : Good N (a :: t)) : Good N t :=
  fun x hx => h x (by simp [hx])

theorem om_good {a b : Nat} (ha : 0 < a ∧ a < N) (hb : 0 < b ∧ b < N) :
    om a b = true ↔ a ≠ b ∧ meas a = meas b := by
  rw [H.ortho_iff a b ha.2 hb.2]
  constructor
  · rintro (h | h | h)
    · omega
    · omega
    · exact h
  · exact fun h => .inr (.inr h)

theorem nc_of_om {a b : Nat} (ha : 0 < a ∧ a < N) (hb : 0 < b ∧ b < N) (h : om a b = true) (c : Nat) :
    nc a c = nc b c :=
  H.nc_meas a b c ha.1 ha.2 hb.1 hb.2 ((om_good H ha hb).1 h).2

theorem hit_swap {a x y : Nat} {u v : List Nat} (ha : 0 < a ∧ a < N) (hxy : nc x y = false)
    (hg : Good N (u ++ x :: y :: v)) (h : hit nc om a (u ++ x :: y :: v)) :
    hit nc om a (u ++ y :: x :: v) := by
  induction u with
  | nil =>
    have hx := hg x (by simp)
    have hy := hg y (by simp)
    simp only [List.nil_append, hit] at *
    rcases h with h | ⟨h1, h | ⟨h2, h3⟩⟩
    · right
      refine ⟨?_, .inl h⟩
      rw [← nc_of_om H hx ha h]; exact hxy
    · exact .inl h
    · exact .inr ⟨h2, .inr ⟨h1, h3⟩⟩
  | cons b u ih =>
    simp only [List.cons_append, hit] at *
    rcases h with h | ⟨h1, h2⟩
    · exact .inl h
    · exact .inr ⟨h1, ih hg.tail h2⟩

theorem vanish_swap {x y : Nat} {u v : List Nat} (hxy : nc x y = false)
    (hg : Good N (u ++ x :: y :: v)) (h : vanish nc om (u ++ x :: y :: v)) :
    vanish nc om (u ++ y :: x :: v) := by
  induction u with
  | nil =>
    have hx := hg x (by simp)
    have hy := hg y (by simp)
    have hyx : nc y x = false := by rw [H.nc_symm]; exact hxy
    simp only [List.nil_append, vanish, hit] at *
    rcases h with (h | ⟨_, h⟩) | h | h
    · refine .inl (.inl ?_)
      rw [om_good H hy hx] at h
      rw [om_good H hx hy]
      exact ⟨h.1.symm, h.2.symm⟩
    · exact .inr (.inl h)
    · exact .inl (.inr ⟨hyx, h⟩)
    · exact .inr (.inr h)
  | cons b u ih =>
    simp only [List.cons_append, vanish] at *
    rcases h with h | h
    · exact .inl (hit_swap H (hg b (by simp)) hxy hg.tail h)
    · exact .inr (ih hg.tail h)

theorem vanish_commEq {u v : List Nat} (h : CommEq (Comm nc) u v) (hg : Good N u) :
    vanish nc om u ↔ vanish nc om v := by
  induction h with
  | refl w => rfl
  | symm h ih => exact (ih fun x hx => hg x (h.perm.mem_iff.1 hx)).symm
  | trans h1 _ ih1 ih2 =>
    exact (ih1 hg).trans (ih2 fun x hx => hg x (h1.perm.mem_iff.2 hx))
  | swap u a b v hab =>
    refine ⟨vanish_swap H hab hg, vanish_swap H (by rw [H.nc_symm]; exact hab) ?_⟩
    intro x hx
    exact hg x (((List.Perm.swap b a v).append_left u).mem_iff.2 hx)

theorem hit_spec {a : Nat} {t : List Nat} (ha : 0 < a ∧ a < N) (hg : Good N t)
    (h : hit nc om a t) : ∃ b, (0 < b ∧ b < N) ∧ om b a = true ∧ firstable nc b t := by
  induction t with
  | nil => exact h.elim
  | cons c t ih =>
    rcases h with h | ⟨h1, h2⟩
    · exact ⟨c, hg c (by simp), h, .inl rfl⟩
    · obtain ⟨b, hb, hba, hf⟩ := ih hg.tail h2
      exact ⟨b, hb, hba, .inr ⟨by rw [nc_of_om H hb ha hba]; exact h1, hf⟩⟩

theorem vanish_normal {w : List Nat} (hn : Normal nc w) (hg : Good N w) (h : vanish nc om w) :
    hasOrthoPair om w = true := by
  induction w with
  | nil => exact h.elim
  | cons a t ih =>
    match t with
    | [] => rcases h with h | h <;> exact h.elim
    | c :: t =>
      rw [hasOrthoPair, Bool.or_eq_true]
      by_cases hca : om c a = true
      · exact .inl hca
      · right
        apply ih hn.2 hg.tail
        rcases h with h | h
        · rcases h with h | ⟨h1, h2⟩
          · exact absurd h hca
          · have ha := hg a (by simp)
            have hc := hg c (by simp)
            obtain ⟨b, hb, hba, hf⟩ := hit_spec H ha hg.tail.tail h2
            have hm := ((om_good H hb ha).1 hba).2
            have l1 : a ≤ c := hn.1 c (.inl rfl) (by rw [H.nc_symm]; exact h1)
            have l2 : c ≤ b := hn.2.1 b hf (by rw [nc_of_om H hb ha hba]; exact h1)
            have hmc := H.contiguous a c b ha.1 l1 l2 hb.2 hm.symm
            have hac : c = a := by
              by_cases e : c = a
              · exact e
              · exact absurd ((om_good H hc ha).2 ⟨e, hmc⟩) hca
            subst hac
            exact .inl h2
        · exact h

omit H in
theorem vanish_of_pair {w : List Nat} (h : hasOrthoPair om w = true) : vanish nc om w := by
  fun_induction hasOrthoPair om w with
  | case1 => simp at h
  | case2 a => simp at h
  | case3 a b t ih =>
    simp only [Bool.or_eq_true] at h
    rcases h with h | h
    · exact .inl (.inl h)
    · exact .inr (ih h)

theorem vanish_canon {w : List Nat} (hg : Good N w) :
    hasOrthoPair om (lexmonToCanonical nc w) = true ↔ vanish nc om w := by
  have hc := canon_sound nc w
  have hg' : Good N (lexmonToCanonical nc w) := fun x hx => hg x (hc.perm.mem_iff.2 hx)
  rw [vanish_commEq H hc hg]
  exact ⟨vanish_of_pair, vanish_normal H (canon_normal H.nc_symm H.nc_diag w) hg'⟩

omit H in
theorem hit_idem {a x : Nat} {u v : List Nat} :
    hit nc om x (u ++ a :: a :: v) ↔ hit nc om x (u ++ a :: v) := by
  induction u with
  | nil =>
    simp only [List.nil_append, hit]
    constructor
    · rintro (h | ⟨_, h⟩)
      · exact .inl h
      · exact h
    · rintro (h | h)
      · exact .inl h
      · exact .inr ⟨h.1, .inr h⟩
  | cons b u ih => simp only [List.cons_append, hit, ih]

theorem vanish_idem {a : Nat} {u v : List Nat} (ha : 0 < a ∧ a < N) :
    vanish nc om (u ++ a :: a :: v) ↔ vanish nc om (u ++ a :: v) := by
  induction u with
  | nil =>
    have : ¬ om a a = true := fun h => ((om_good H ha ha).1 h).1 rfl
    simp only [List.nil_append, vanish, hit]
    constructor
    · rintro ((h | h) | h | h)
      · exact absurd h this
      · exact .inl h.2
      · exact .inl h
      · exact .inr h
    · rintro (h | h)
      · exact .inr (.inl h)
      · exact .inr (.inr h)
  | cons b u ih => simp only [List.cons_append, vanish, ih, hit_idem]

omit H in
theorem vanish_zero_pair {a b : Nat} {u v : List Nat} (h : om b a = true) :
    vanish nc om (u ++ a :: b :: v) := by
  induction u with
  | nil => exact .inl (.inl h)
  | cons c u ih => exact .inr ih

theorem pair_of_zero {w : List Nat} (hv : ∀ x ∈ w, x < N) (h0 : 0 ∈ w) (hl : 2 ≤ w.length) :
    hasOrthoPair om w = true := by
  fun_induction hasOrthoPair om w with
  | case1 => simp at h0
  | case2 a => simp at hl
  | case3 a b t ih =>
    have ha := hv a (by simp)
    have hb := hv b (by simp)
    rw [Bool.or_eq_true]
    rcases List.mem_cons.1 h0 with h | h
    · exact .inl ((H.ortho_iff b a hb ha).2 (.inr (.inl h.symm)))
    · match t with
      | [] => simp at h; exact .inl ((H.ortho_iff b a hb ha).2 (.inl h.symm))
      | c :: t => exact .inr (ih (fun x hx => hv x (by simp_all)) h (by simp))

omit H in
/-- Uniform description of the full canonical form. -/
theorem toCanonical_eq (w : List Nat) :
    toCanonical nc om false false w =
      removeSquares (if hasOrthoPair om (lexmonToCanonical nc w) then [0]
        else lexmonToCanonical nc w) := by
  unfold toCanonical
  match w with
  | [] => simp [lexmonToCanonical, hasOrthoPair, removeSquares]
  | [a] => simp [lexmonToCanonical, hasOrthoPair, removeSquares]
  | a :: b :: t =>
    have hne : lexmonToCanonical nc (a :: b :: t) ≠ [0] := by
      intro h
      have := (canon_sound nc (a :: b :: t)).perm.length_eq
      rw [h] at this; simp at this
    simp [lexmonIsZero, hne]

theorem toCanonical_opEq_eq {u v : List Nat}
    (h : OpEq N (Comm nc) (fun a b => om a b = true) u v) :
    ((∀ x ∈ u, x < N) ↔ (∀ x ∈ v, x < N)) ∧
    ((∀ x ∈ u, x < N) → toCanonical nc om false false u = toCanonical nc om false false v) := by
  induction h with
  | refl w => exact ⟨.rfl, fun _ => rfl⟩
  | symm _ ih => exact ⟨ih.1.symm, fun h => (ih.2 (ih.1.2 h)).symm⟩
  | trans _ _ ih1 ih2 => exact ⟨ih1.1.trans ih2.1, fun h => (ih1.2 h).trans (ih2.2 (ih1.1.1 h))⟩
  | swap u a b v hab =>
    have hc := CommEq.swap u a b v hab
    refine ⟨⟨fun h x hx => h x (hc.perm.mem_iff.2 hx), fun h x hx => h x (hc.perm.mem_iff.1 hx)⟩, ?_⟩
    intro _
    rw [toCanonical_eq, toCanonical_eq, canon_complete H.nc_symm H.nc_diag hc]
  | idem u a v =>
    refine ⟨by simp, fun hv => ?_⟩
    rw [toCanonical_eq, toCanonical_eq]
    by_cases h0 : 0 ∈ u ++ a :: v
    · have h0' : 0 ∈ u ++ a :: a :: v := by simp at h0 ⊢; omega
      have e1 : hasOrthoPair om (lexmonToCanonical nc (u ++ a :: a :: v)) = true := by
        have hp := (canon_sound nc (u ++ a :: a :: v)).perm
        apply pair_of_zero H (fun x hx => hv x (hp.mem_iff.2 hx)) (hp.mem_iff.1 h0')
        rw [← hp.length_eq]; simp; omega
      rw [e1]
      by_cases hlen : 2 ≤ (u ++ a :: v).length
      · have e2 : hasOrthoPair om (lexmonToCanonical nc (u ++ a :: v)) = true := by
          have hp := (canon_sound nc (u ++ a :: v)).perm
          apply pair_of_zero H _ (hp.mem_iff.1 h0)
          · rw [← hp.length_eq]; exact hlen
          · intro x hx
            have := hp.mem_iff.2 hx
            apply hv; simp at this ⊢; omega
        rw [e2]; simp
      · have : u = [] ∧ v = [] := by
          simp at hlen
          cases u <;> cases v <;> simp_all <;> omega
        obtain ⟨rfl, rfl⟩ := this
        have : a = 0 := by simp at h0; exact h0.symm
        subst this
        simp [lexmonToCanonical, hasOrthoPair]
    · have hg : Good N (u ++ a :: a :: v) := by
        intro x hx
        refine ⟨?_, hv x hx⟩
        apply Nat.pos_of_ne_zero
        rintro rfl
        apply h0; simp at hx ⊢; omega
      have hg' : Good N (u ++ a :: v) := fun x hx => hg x (by simp at hx ⊢; omega)
      have hiff : (hasOrthoPair om (lexmonToCanonical nc (u ++ a :: a :: v)) = true) ↔
          (hasOrthoPair om (lexmonToCanonical nc (u ++ a :: v)) = true) := by
        rw [vanish_canon H hg, vanish_canon H hg', vanish_idem H (hg a (by simp))]
      by_cases hz : hasOrthoPair om (lexmonToCanonical nc (u ++ a :: v)) = true
      · rw [if_pos (hiff.2 hz), if_pos hz]
      · rw [if_neg (fun h => hz (hiff.1 h)), if_neg hz, removeSquares_canon_idem H.nc_symm H.nc_diag]
  | zero u a b v hv hab =>
    refine ⟨⟨fun _ => by simp [H.pos], fun _ => hv⟩, fun _ => ?_⟩
    rw [toCanonical_eq, toCanonical_eq]
    have e1 : hasOrthoPair om (lexmonToCanonical nc (u ++ a :: b :: v)) = true := by
      have hp := (canon_sound nc (u ++ a :: b :: v)).perm
      by_cases h0 : 0 ∈ u ++ a :: b :: v
      · apply pair_of_zero H (fun x hx => hv x (hp.mem_iff.2 hx)) (hp.mem_iff.1 h0)
        rw [← hp.length_eq]; simp; omega
      · have hg : Good N (u ++ a :: b :: v) := by
          intro x hx
          refine ⟨?_, hv x hx⟩
          apply Nat.pos_of_ne_zero
          rintro rfl
          exact h0 hx
        rw [vanish_canon H hg]
        apply vanish_zero_pair
        have ha := hg a (by simp)
        have hb := hg b (by simp)
        rw [om_good H ha hb] at hab
        rw [om_good H hb ha]
        exact ⟨hab.1.symm, hab.2.symm⟩
    rw [e1]
    simp [lexmonToCanonical, hasOrthoPair]

theorem om_symm_of {a b : Nat} (ha : a < N) (hb : b < N) : om a b = true ↔ om b a = true := by
  rw [H.ortho_iff a b ha hb, H.ortho_iff b a hb ha]
  constructor
  · rintro (h | h | h)
    · exact .inr (.inl h)
    · exact .inl h
    · exact .inr (.inr ⟨h.1.symm, h.2.symm⟩)
  · rintro (h | h | h)
    · exact .inr (.inl h)
    · exact .inl h
    · exact .inr (.inr ⟨h.1.symm, h.2.symm⟩)

theorem OpEq_flip {u v : List Nat}
    (h : OpEq N (Comm nc) (fun a b => om b a = true) u v) :
    OpEq N (Comm nc) (fun a b => om a b = true) u v := by
  induction h with
  | refl w => exact .refl _
  | symm _ ih => exact ih.symm
  | trans _ _ ih1 ih2 => exact ih1.trans ih2
  | swap u a b v hab => exact .swap u a b v hab
  | idem u a v => exact .idem u a v
  | zero u a b v hv hab =>
    exact .zero u a b v hv ((om_symm_of H (hv a (by simp)) (hv b (by simp))).2 hab)

end
end Verif.Canon

import Verif.Canon.Lemmas
/-! Lexicographic normal forms: soundness, minimality, and the interplay with squares and zeros. -/
namespace Verif.Canon
open Spec

theorem canon_sound (nc : BMat) (w : List Nat) :
    CommEq (Comm nc) w (lexmonToCanonical nc w) := by
  apply canon_induction (P := fun w r => CommEq (Comm nc) w r)
  · exact .refl _
  · exact fun _ => .refl _
  · exact fun _ _ _ => .refl _
  · intro w _ h
    exact CommEq.of_perm (ascending_perm _).symm (subAny_false h)
  · intro w c _ _ _ hf _ ih
    exact (firstable_move hf).trans (ih.cons c)

/-! ### Invariance under swaps -/

theorem firstable_swap {nc : BMat} {c a b : Nat} {u v : List Nat}
    (hab : nc a b = false) (h : firstable nc c (u ++ a :: b :: v)) :
    firstable nc c (u ++ b :: a :: v) := by
  induction u with
  | nil =>
    simp only [List.nil_append, firstable] at *
    rcases h with h | ⟨h1, h2 | ⟨h2, h3⟩⟩
    · subst h; exact .inr ⟨hab, .inl rfl⟩
    · exact .inl h2
    · exact .inr ⟨h2, .inr ⟨h1, h3⟩⟩
  | cons x u ih =>
    simp only [List.cons_append, firstable] at *
    rcases h with h | ⟨h1, h2⟩
    · exact .inl h
    · exact .inr ⟨h1, ih h2⟩

theorem firstable_commEq {nc : BMat} (hsym : ∀ a b, nc a b = nc b a) {u v : List Nat}
    (h : CommEq (Comm nc) u v) (c : Nat) : firstable nc c u ↔ firstable nc c v := by
  induction h with
  | refl w => rfl
  | symm _ ih => exact ih.symm
  | trans _ _ ih1 ih2 => exact ih1.trans ih2
  | swap u a b v hab =>
    exact ⟨firstable_swap hab, firstable_swap (by rw [hsym]; exact hab)⟩

theorem erase_commEq {nc : BMat} {u v : List Nat}
    (h : CommEq (Comm nc) u v) (c : Nat) : CommEq (Comm nc) (u.erase c) (v.erase c) := by
  induction h with
  | refl w => exact .refl _
  | symm _ ih => exact ih.symm
  | trans _ _ ih1 ih2 => exact ih1.trans ih2
  | swap u a b v hab =>
    by_cases hu : c ∈ u
    · rw [List.erase_append_left _ hu, List.erase_append_left _ hu]
      exact CommEq.swap _ a b v hab
    · rw [List.erase_append_right _ hu, List.erase_append_right _ hu]
      apply CommEq.append_left
      by_cases ha : a = c
      · subst ha
        by_cases hb : b = a
        · subst hb; exact .refl _
        · rw [List.erase_cons_head, List.erase_cons_tail (by simpa using hb), List.erase_cons_head]
          exact .refl _
      · by_cases hb : b = c
        · subst hb
          rw [List.erase_cons_tail (by simpa using ha), List.erase_cons_head, List.erase_cons_head]
          exact .refl _
        · rw [List.erase_cons_tail (by simpa using ha), List.erase_cons_tail (by simpa using hb),
            List.erase_cons_tail (by simpa using hb), List.erase_cons_tail (by simpa using ha)]
          exact CommEq.swap [] a b _ hab

/-! ### Minimality -/

theorem sorted_le_perm {s w : List Nat} (hs : s.Pairwise (· ≤ ·)) (h : s.Perm w) : s ≤ w := by
  induction s generalizing w with
  | nil => simp
  | cons x s ih =>
    match w with
    | [] => simp at h
    | y :: w =>
      have hy : y ∈ x :: s := h.mem_iff.2 (by simp)
      rw [List.pairwise_cons] at hs
      rw [List.cons_le_cons_iff]
      rcases List.mem_cons.1 hy with rfl | hy'
      · exact .inr ⟨rfl, ih hs.2 ((List.perm_cons _).1 h)⟩
      · by_cases hxy : x = y
        · subst hxy
          exact .inr ⟨rfl, ih hs.2 ((List.perm_cons _).1 h)⟩
        · left; have := hs.1 y hy'; omega

theorem canon_min {nc : BMat} (hsym : ∀ a b, nc a b = nc b a) (hdiag : ∀ a, nc a a = false)
    (w : List Nat) : ∀ v, CommEq (Comm nc) w v → lexmonToCanonical nc w ≤ v := by
  apply canon_induction (P := fun w r => ∀ v, CommEq (Comm nc) w v → r ≤ v)
  · intro v h; simp
  · intro a v h
    have := h.perm
    rw [List.singleton_perm] at this
    simp [this]
  · intro w hw h v _
    match w, hw with
    | a :: t, _ => simp [subAll, hdiag] at h
  · intro w _ _ v h
    apply sorted_le_perm
    · exact ascending_sorted w
    · exact (ascending_perm _).trans h.perm
  · intro w c _ _ _ hf hmin ih v h
    match v with
    | [] =>
      have := h.perm.length_eq
      have := firstable_mem hf
      cases w <;> simp_all
    | d :: v =>
      have hd : firstable nc d w := (firstable_commEq hsym h d).2 (.inl rfl)
      rw [List.cons_le_cons_iff]
      rcases Nat.lt_or_eq_of_le (hmin d hd) with hlt | heq
      · exact .inl hlt
      · subst heq
        right
        refine ⟨rfl, ih v ?_⟩
        have := erase_commEq h c
        simpa using this

theorem lexLE_of_le {u v : List Nat} (h : u ≤ v) : LexLE u v := by
  induction u generalizing v with
  | nil => trivial
  | cons a u ih =>
    match v with
    | [] => simp at h
    | b :: v =>
      rw [List.cons_le_cons_iff] at h
      rcases h with h | h
      · exact .inl h
      · exact .inr ⟨h.1, ih h.2⟩

theorem canon_complete {nc : BMat} (hsym : ∀ a b, nc a b = nc b a) (hdiag : ∀ a, nc a a = false)
    {u v : List Nat} (h : CommEq (Comm nc) u v) :
    lexmonToCanonical nc u = lexmonToCanonical nc v := by
  apply List.le_antisymm
  · exact canon_min hsym hdiag u _ (h.trans (canon_sound nc v))
  · exact canon_min hsym hdiag v _ (h.symm.trans (canon_sound nc u))

/-! ### Local characterisation of normal words -/

/-- No letter can be moved in front of a larger one. -/
def Normal (nc : BMat) : List Nat → Prop
  | [] => True
  | a :: t => (∀ c, firstable nc c t → nc c a = false → a ≤ c) ∧ Normal nc t

theorem normal_of_min {nc : BMat} {w : List Nat}
    (h : ∀ v, CommEq (Comm nc) w v → w ≤ v) : Normal nc w := by
  induction w with
  | nil => trivial
  | cons a t ih =>
    refine ⟨?_, ih ?_⟩
    · intro c hc hca
      have h1 : CommEq (Comm nc) (a :: t) (c :: a :: t.erase c) :=
        ((firstable_move hc).cons a).trans (CommEq.swap [] c a _ hca).symm
      have := h _ h1
      rw [List.cons_le_cons_iff] at this
      omega
    · intro v hv
      have := h _ (hv.cons a)
      rw [List.cons_le_cons_iff] at this
      rcases this with h | h
      · omega
      · exact h.2

theorem min_of_normal {nc : BMat} (hsym : ∀ a b, nc a b = nc b a) {w : List Nat}
    (h : Normal nc w) : ∀ v, CommEq (Comm nc) w v → w ≤ v := by
  induction w with
  | nil => intro v _; simp
  | cons a t ih =>
    intro v hv
    match v with
    | [] => have := hv.perm.length_eq; simp at this
    | d :: v =>
      have hd : firstable nc d (a :: t) := (firstable_commEq hsym hv d).2 (.inl rfl)
      rw [List.cons_le_cons_iff]
      by_cases had : a = d
      · subst had
        right
        refine ⟨rfl, ih h.2 v ?_⟩
        have := erase_commEq hv a
        simpa using this
      · rcases hd with hd | ⟨h1, h2⟩
        · exact absurd hd.symm had
        · have := h.1 d h2 h1
          left; omega

theorem canon_normal {nc : BMat} (hsym : ∀ a b, nc a b = nc b a) (hdiag : ∀ a, nc a a = false)
    (w : List Nat) : Normal nc (lexmonToCanonical nc w) :=
  normal_of_min fun v hv => canon_min hsym hdiag w v ((canon_sound nc w).trans hv)

theorem canon_of_normal {nc : BMat} (hsym : ∀ a b, nc a b = nc b a) (hdiag : ∀ a, nc a a = false)
    {w : List Nat} (h : Normal nc w) : lexmonToCanonical nc w = w :=
  List.le_antisymm (canon_min hsym hdiag w w (.refl _))
    (min_of_normal hsym h _ (canon_sound nc w))

/-! ### Squares -/

theorem removeSquares_opEq {N : Nat} {comm ortho : Nat → Nat → Prop} (p w : List Nat) :
    OpEq N comm ortho (p ++ w) (p ++ removeSquares w) := by
  fun_induction removeSquares w generalizing p with
  | case1 => exact .refl _
  | case2 a => exact .refl _
  | case3 b t ih => exact (OpEq.idem p b t).trans (ih p)
  | case4 a b t hne ih =>
    have := ih (p ++ [a])
    simpa using this

theorem hasOrthoPair_zero {N : Nat} {nc om : BMat} {w : List Nat} (h : hasOrthoPair om w = true) (p : List Nat)
    (hv : ∀ x ∈ p ++ w, x < N) :
    OpEq N (Comm nc) (fun a b => om b a = true) (p ++ w) [0] := by
  fun_induction hasOrthoPair om w generalizing p with
  | case1 => simp at h
  | case2 a => simp at h
  | case3 a b t ih =>
    simp only [Bool.or_eq_true] at h
    rcases h with h | h
    · exact OpEq.zero p a b t hv h
    · have := ih h (p ++ [a]) (by simpa using hv)
      simpa using this

theorem toCanonical_opEq {N : Nat} (nc om : BMat) (w : List Nat) (hv : ∀ x ∈ w, x < N) :
    OpEq N (Comm nc) (fun a b => om b a = true) w (toCanonical nc om false false w) := by
  unfold toCanonical
  split
  · exact .refl _
  · simp only [Bool.false_eq_true, if_false]
    refine (OpEq.of_commEq (canon_sound nc w)).trans ?_
    split
    · rename_i hz
      simp only [lexmonIsZero, Bool.or_eq_true, beq_iff_eq] at hz
      rcases hz with h | h
      · rw [h]; exact .refl _
      · exact hasOrthoPair_zero h [] fun x hx => hv x ((canon_sound nc w).perm.mem_iff.2 hx)
    · exact removeSquares_opEq [] _

end Verif.Canon

import Verif.SdpWriter.Matrix
/-
The diagonal blocks: bounds, equalities and inequalities.
-/
namespace Verif.SdpWriter
open Verif.Text Verif.State Verif.SdpSolver

set_option linter.unusedSectionVars false

variable {K : Type} {n : Nat} [Field K] [LinearOrder K]

theorem mapM_some {α β : Type} (f : α → Option (List β)) (l : List α) (r : List (List β)) (h : l.mapM f = some r) :
    (∀ a ∈ l, ∃ b, f a = some b) ∧ r = l.map fun a => (f a).getD [] := by
  induction l generalizing r with
  | nil =>
    simp only [List.mapM_nil] at h
    cases h
    simp
  | cons a l ih =>
    rw [List.mapM_cons] at h
    rcases hf : f a with _ | b
    · rw [hf] at h; cases h
    · rcases hl : l.mapM f with _ | r'
      · rw [hf, hl] at h; cases h
      · rw [hf, hl] at h
        cases h
        obtain ⟨h1, h2⟩ := ih r' hl
        refine ⟨?_, by simp [hf, ← h2]⟩
        intro c hc
        rcases List.mem_cons.1 hc with rfl | hc
        · exact ⟨b, hf⟩
        · exact h1 c hc

theorem gather_some {α : Type} (f : α × Nat → Option (List (Ln K))) (l : List α) (ls : List (Ln K)) (h : gather f l = some ls) :
    (∀ t ∈ l.zipIdx, ∃ b, f t = some b) ∧ ls = l.zipIdx.flatMap fun t => (f t).getD [] := by
  unfold gather at h
  rcases hm : l.zipIdx.mapM f with _ | r
  · rw [hm] at h; cases h
  · rw [hm] at h
    obtain ⟨h1, h2⟩ := mapM_some f _ r hm
    refine ⟨h1, ?_⟩
    simp only [Option.map_some, Option.some.injEq] at h
    rw [← h, h2, List.flatMap_def]

theorem zipIdx_aux {α : Type} (l : List α) (s i : Nat) (g : α → K) :
    ((l.zipIdx s).map fun t => if t.2 = i + s then g t.1 else 0).sum = match l[i]? with | some a => g a | none => 0 := by
  induction l generalizing s i with
  | nil => simp
  | cons a l ih =>
    rw [List.zipIdx_cons, List.map_cons, List.sum_cons]
    cases i with
    | zero =>
      have : ((l.zipIdx (s + 1)).map fun t => if t.2 = 0 + s then g t.1 else 0).sum = 0 := by
        apply List.sum_eq_zero
        intro y hy
        obtain ⟨t, ht, rfl⟩ := List.mem_map.1 hy
        have := List.le_snd_of_mem_zipIdx ht
        rw [if_neg (by omega)]
      rw [this]
      simp
    | succ i =>
      have := ih (s + 1) i
      rw [show i + (s + 1) = i + 1 + s by omega] at this
      rw [this, if_neg (by omega), zero_add, List.getElem?_cons_succ]

theorem zipIdx_sum {α : Type} (l : List α) (i : Nat) (g : α → K) :
    (l.zipIdx.map fun t => if t.2 = i then g t.1 else 0).sum = match l[i]? with | some a => g a | none => 0 := zipIdx_aux l 0 i g

/-- A section in which the `k`-th item is written at the `k`-th place of the diagonal. -/
theorem gather_total {α : Type} (f : α × Nat → Option (List (Ln K))) (l : List α) (ls : List (Ln K)) (h : gather f l = some ls)
    (x : Nat → K) (b i : Nat) (r : Nat) (g : α → K)
    (hg : ∀ t ∈ l.zipIdx, ∀ out, f t = some out → total x out b r r = if t.2 = i then g t.1 else 0) (a : α) (ha : l[i]? = some a) :
    total x ls b r r = g a := by
  obtain ⟨h1, h2⟩ := gather_some f l ls h
  rw [h2, total_flatMap]
  have : (l.zipIdx.map fun t => total x ((f t).getD []) b r r) = l.zipIdx.map fun t => if t.2 = i then g t.1 else 0 := by
    apply List.map_congr_left
    intro t ht
    obtain ⟨out, hout⟩ := h1 t ht
    rw [hout, Option.getD_some]
    exact hg t ht out hout
  rw [this, zipIdx_sum, ha]

theorem gather_block {α : Type} (f : α × Nat → Option (List (Ln K))) (l : List α) (ls : List (Ln K)) (h : gather f l = some ls)
    (P : Ln K → Prop) (hf : ∀ t ∈ l.zipIdx, ∀ out, f t = some out → ∀ ln ∈ out, P ln) : ∀ ln ∈ ls, P ln := by
  obtain ⟨h1, h2⟩ := gather_some f l ls h
  intro ln hln
  rw [h2, List.mem_flatMap] at hln
  obtain ⟨t, ht, hln⟩ := hln
  obtain ⟨out, hout⟩ := h1 t ht
  rw [hout] at hln
  exact hf t ht out hout ln hln

/-- The number of a moment is positive. -/
theorem num_pos (p : Prob K n) (k a : Nat) (h : (matrixPart p).vc.get k = some a) : a ≠ 0 := by
  have := ((matrix_spec p).1.le _ _ h).1
  omega

theorem here_diag (b r : Nat) (l : Ln K) (hb : l.block = b) (hij : l.j = l.i) : Here b r r l ↔ l.i = r := by
  unfold Here
  rw [hij, hb]
  simp

theorem upper_total (tol : K) (p : Prob K n) (x v : Nat → K) (h : Agree p x v) (b r : Nat) (t : (Nat × K) × Nat) (ht : t.1.2 = 0 ∨ tol < |t.1.2|)
    (out : List (Ln K)) (ho : upperLines tol (matrixPart p).vc b t = some out) :
    total x out b (r + 1) (r + 1) = if t.2 = r then t.1.2 - v t.1.1 else 0 := by
  unfold upperLines at ho
  rcases ha : (matrixPart p).vc.get t.1.1 with _ | a
  · rw [ha] at ho; cases ho
  · rw [ha] at ho
    cases ho
    have hx := h.num _ _ ha
    have hne := num_pos p _ _ ha
    by_cases hr : t.2 = r
    · by_cases hq : tol < |t.1.2|
      · simp [total, hq, hr, Here, contrib, tokVal, hne, hx]
        ring
      · have h0 : t.1.2 = 0 := ht.resolve_right hq
        rw [if_neg hq]
        simp [total, hr, Here, contrib, tokVal, hne, hx, h0]
    · by_cases hq : tol < |t.1.2| <;> simp [total, hq, hr, Here]

theorem lower_total (tol : K) (p : Prob K n) (x v : Nat → K) (h : Agree p x v) (b r : Nat) (t : (Nat × K) × Nat) (ht : t.1.2 = 0 ∨ tol < |t.1.2|)
    (out : List (Ln K)) (ho : lowerLines tol (matrixPart p).vc b t = some out) :
    total x out b (r + 1) (r + 1) = if t.2 = r then v t.1.1 - t.1.2 else 0 := by
  unfold lowerLines at ho
  rcases ha : (matrixPart p).vc.get t.1.1 with _ | a
  · rw [ha] at ho; cases ho
  · rw [ha] at ho
    cases ho
    have hx := h.num _ _ ha
    have hne := num_pos p _ _ ha
    by_cases hr : t.2 = r
    · by_cases hq : tol < |t.1.2|
      · simp [total, hq, hr, Here, contrib, tokVal, hne, hx]
        ring
      · have h0 : t.1.2 = 0 := ht.resolve_right hq
        rw [if_neg hq]
        simp [total, hr, Here, contrib, tokVal, hne, hx, h0]
    · by_cases hq : tol < |t.1.2| <;> simp [total, hq, hr, Here]

/-- The terms of an equality at its first row. -/
theorem eqTerm_total (p : Prob K n) (x v : Nat → K) (h : Agree p x v) (b ii : Nat) (t : Nat × K) (out : List (Ln K))
    (ho : eqTerm p (matrixPart p).vc b ii t = some out) (r : Nat) :
    total x out b r r = if r = ii then t.2 * v t.1 else if r = ii + 1 then -(t.2 * v t.1) else 0 := by
  unfold eqTerm at ho
  split at ho
  · rename_i h0
    cases ho
    have := h.known _ _ h0
    simp [total, this]
  · split at ho
    · rename_i h1
      cases ho
      by_cases e1 : r = ii
      · subst e1
        simp [total, Here, contrib, tokVal, h1, h.one]
      · have e1' : ¬ ii = r := fun e => e1 e.symm
        by_cases e2 : r = ii + 1
        · subst e2
          simp [total, Here, contrib, tokVal, h1, h.one]
        · have e2' : ¬ ii + 1 = r := fun e => e2 e.symm
          simp [total, Here, e1, e2, e1', e2']
    · rcases ha : (matrixPart p).vc.get t.1 with _ | a
      · rw [ha] at ho; cases ho
      · rw [ha] at ho
        cases ho
        have hx := h.num _ _ ha
        have hne := num_pos p _ _ ha
        by_cases e1 : r = ii
        · subst e1
          simp [total, Here, contrib, tokVal, hx, hne]
        · have e1' : ¬ ii = r := fun e => e1 e.symm
          by_cases e2 : r = ii + 1
          · subst e2
            simp [total, Here, contrib, tokVal, hx, hne]
          · have e2' : ¬ ii + 1 = r := fun e => e2 e.symm
            simp [total, Here, e1, e2, e1', e2']

theorem sum_map_neg (l : Dict Nat K) (g : Nat × K → K) : (l.map fun t => -(g t)).sum = -(l.map g).sum := by
  induction l with
  | nil => simp
  | cons a l ih => simp only [List.map_cons, List.sum_cons, ih]; ring

theorem eq_total (p : Prob K n) (x v : Nat → K) (h : Agree p x v) (b : Nat) (e : Dict Nat K × Nat) (out : List (Ln K))
    (ho : eqLines p (matrixPart p).vc b e = some out) (r : Nat) :
    total x out b r r = if r = 2 * e.2 + 1 then lin e.1 v else if r = 2 * e.2 + 2 then -lin e.1 v else 0 := by
  unfold eqLines at ho
  rcases hm : e.1.mapM (eqTerm p (matrixPart p).vc b (2 * e.2 + 1)) with _ | ls
  · rw [hm] at ho; cases ho
  · rw [hm] at ho
    cases ho
    obtain ⟨h1, h2⟩ := mapM_some _ _ _ hm
    rw [h2, ← List.flatMap_def, total_flatMap]
    have : (e.1.map fun a => total x ((eqTerm p (matrixPart p).vc b (2 * e.2 + 1) a).getD []) b r r)
        = e.1.map fun t => if r = 2 * e.2 + 1 then t.2 * v t.1 else if r = 2 * e.2 + 1 + 1 then -(t.2 * v t.1) else 0 := by
      apply List.map_congr_left
      intro t ht
      obtain ⟨out, hout⟩ := h1 t ht
      rw [hout, Option.getD_some]
      exact eqTerm_total p x v h b _ t out hout r
    rw [this]
    by_cases e1 : r = 2 * e.2 + 1
    · simp only [e1, if_true]; rfl
    · by_cases e2 : r = 2 * e.2 + 1 + 1
      · simp only [e2, show ¬ (2 * e.2 + 1 + 1 = 2 * e.2 + 1) by omega, if_true, if_false]
        rw [sum_map_neg]
        rfl
      · simp [e1, e2, show ¬ r = 2 * e.2 + 2 from e2]

theorem ineqTerm_total (p : Prob K n) (x v : Nat → K) (h : Agree p x v) (b ii : Nat) (t : Nat × K) (out : List (Ln K))
    (ho : ineqTerm p (matrixPart p).vc b ii t = some out) (r : Nat) :
    total x out b r r = if r = ii then t.2 * v t.1 - (if !(decide (p.known.get t.1 = some 0)) && decide (t.1 = 1) then t.2 else 0) else 0 := by
  unfold ineqTerm at ho
  split at ho
  · rename_i h0
    cases ho
    have := h.known _ _ h0
    simp [total, this, h0]
  · rename_i h0
    split at ho
    · rename_i h1
      cases ho
      rw [h1] at h0
      simp [total, h1, h.one, h0]
    · rename_i h1
      rcases ha : (matrixPart p).vc.get t.1 with _ | a
      · rw [ha] at ho; cases ho
      · rw [ha] at ho
        cases ho
        have hx := h.num _ _ ha
        have hne := num_pos p _ _ ha
        by_cases e1 : r = ii
        · subst e1
          simp [total, Here, contrib, tokVal, hx, hne, h1]
        · have e1' : ¬ ii = r := fun e => e1 e.symm
          simp [total, Here, e1, e1']

theorem sumCoeffs_eq (p : Prob K n) (d : Dict Nat K) :
    sumCoeffs p d = (d.map fun t => if !(decide (p.known.get t.1 = some 0)) && decide (t.1 = 1) then t.2 else 0).sum := by
  unfold sumCoeffs
  induction d with
  | nil => rfl
  | cons t d ih =>
    rw [List.map_cons, List.sum_cons, ← ih, List.filter_cons]
    split
    · simp
    · simp

theorem sum_map_sub (l : Dict Nat K) (g g' : Nat × K → K) : (l.map fun t => g t - g' t).sum = (l.map g).sum - (l.map g').sum := by
  induction l with
  | nil => simp
  | cons a l ih => simp only [List.map_cons, List.sum_cons, ih]; ring

theorem ineq_total (p : Prob K n) (x v : Nat → K) (h : Agree p x v) (b : Nat) (e : Dict Nat K × Nat) (out : List (Ln K))
    (ho : ineqLines p (matrixPart p).vc b e = some out) (r : Nat) :
    total x out b r r = if r = 2 * e.2 + 1 then lin e.1 v else 0 := by
  unfold ineqLines at ho
  rcases hm : e.1.mapM (ineqTerm p (matrixPart p).vc b (2 * e.2 + 1)) with _ | ls
  · rw [hm] at ho; cases ho
  · rw [hm] at ho
    simp only [Option.map_some, Option.some.injEq] at ho
    subst ho
    obtain ⟨h1, h2⟩ := mapM_some _ _ _ hm
    rw [h2, ← List.flatMap_def, total_append, total_flatMap]
    have : (e.1.map fun a => total x ((ineqTerm p (matrixPart p).vc b (2 * e.2 + 1) a).getD []) b r r)
        = e.1.map fun t => if r = 2 * e.2 + 1 then t.2 * v t.1
            - (if !(decide (p.known.get t.1 = some 0)) && decide (t.1 = 1) then t.2 else 0) else 0 := by
      apply List.map_congr_left
      intro t ht
      obtain ⟨out, hout⟩ := h1 t ht
      rw [hout, Option.getD_some]
      exact ineqTerm_total p x v h b _ t out hout r
    rw [this]
    by_cases e1 : r = 2 * e.2 + 1
    · simp only [e1, if_true]
      rw [sum_map_sub, ← sumCoeffs_eq]
      have : total x (if sumCoeffs p e.1 ≠ 0 then [(⟨0, b, 2 * e.2 + 1, 2 * e.2 + 1, .num (-sumCoeffs p e.1)⟩ : Ln K)] else []) b (2 * e.2 + 1) (2 * e.2 + 1)
          = sumCoeffs p e.1 := by
        by_cases hs : sumCoeffs p e.1 ≠ 0
        · rw [if_pos hs]; simp [total, Here, contrib, tokVal]
        · rw [if_neg hs]; simp only [ne_eq, not_not] at hs; simp [total, hs]
      rw [this]
      unfold lin
      ring
    · have e1' : ¬ 2 * e.2 + 1 = r := fun e => e1 e.symm
      rw [total_zero]
      · simp [e1]
      · intro l hl
        split at hl
        · simp only [List.mem_singleton] at hl
          subst hl
          simp [Here, e1']
        · cases hl

/-- Where the lines of the sections are. -/
theorem upper_place (tol : K) (vc : Dict Nat Nat) (b : Nat) (t : (Nat × K) × Nat) (out : List (Ln K)) (ho : upperLines tol vc b t = some out) :
    ∀ l ∈ out, l.block = b ∧ l.i = t.2 + 1 ∧ l.j = t.2 + 1 ∧ (l.var = 0 ∨ ∃ k, vc.get k = some l.var) ∧ (l.val = .negOne ∨ l.val = .neg t.1.2) := by
  unfold upperLines at ho
  rcases ha : vc.get t.1.1 with _ | a
  · rw [ha] at ho; cases ho
  · rw [ha] at ho
    cases ho
    intro l hl
    rcases List.mem_cons.1 hl with rfl | hl
    · exact ⟨rfl, rfl, rfl, Or.inr ⟨_, ha⟩, Or.inl rfl⟩
    · split at hl
      · simp only [List.mem_singleton] at hl; subst hl; exact ⟨rfl, rfl, rfl, Or.inl rfl, Or.inr rfl⟩
      · cases hl

theorem lower_place (tol : K) (vc : Dict Nat Nat) (b : Nat) (t : (Nat × K) × Nat) (out : List (Ln K)) (ho : lowerLines tol vc b t = some out) :
    ∀ l ∈ out, l.block = b ∧ l.i = t.2 + 1 ∧ l.j = t.2 + 1 ∧ (l.var = 0 ∨ ∃ k, vc.get k = some l.var) ∧ (l.val = .one ∨ ∃ q, l.val = .num q) := by
  unfold lowerLines at ho
  rcases ha : vc.get t.1.1 with _ | a
  · rw [ha] at ho; cases ho
  · rw [ha] at ho
    cases ho
    intro l hl
    rcases List.mem_cons.1 hl with rfl | hl
    · exact ⟨rfl, rfl, rfl, Or.inr ⟨_, ha⟩, Or.inl rfl⟩
    · split at hl
      · simp only [List.mem_singleton] at hl; subst hl; exact ⟨rfl, rfl, rfl, Or.inl rfl, Or.inr ⟨_, rfl⟩⟩
      · cases hl

theorem eq_place (p : Prob K n) (vc : Dict Nat Nat) (b : Nat) (e : Dict Nat K × Nat) (out : List (Ln K)) (ho : eqLines p vc b e = some out) :
    ∀ l ∈ out, l.block = b ∧ (l.i = 2 * e.2 + 1 ∨ l.i = 2 * e.2 + 2) ∧ l.j = l.i ∧ (l.var = 0 ∨ ∃ k, vc.get k = some l.var) ∧ ∃ q, l.val = .num q := by
  unfold eqLines at ho
  rcases hm : e.1.mapM (eqTerm p vc b (2 * e.2 + 1)) with _ | ls
  · rw [hm] at ho; cases ho
  · rw [hm] at ho
    cases ho
    obtain ⟨h1, h2⟩ := mapM_some _ _ _ hm
    intro l hl
    rw [h2, ← List.flatMap_def, List.mem_flatMap] at hl
    obtain ⟨t, ht, hl⟩ := hl
    obtain ⟨out, hout⟩ := h1 t ht
    rw [hout, Option.getD_some] at hl
    unfold eqTerm at hout
    split at hout
    · cases hout; cases hl
    · split at hout
      · cases hout
        simp only [List.mem_cons, List.not_mem_nil, or_false] at hl
        rcases hl with rfl | rfl
        · exact ⟨rfl, Or.inl rfl, rfl, Or.inl rfl, _, rfl⟩
        · exact ⟨rfl, Or.inr rfl, rfl, Or.inl rfl, _, rfl⟩
      · rcases ha : vc.get t.1 with _ | a
        · rw [ha] at hout; cases hout
        · rw [ha] at hout
          cases hout
          simp only [List.mem_cons, List.not_mem_nil, or_false] at hl
          rcases hl with rfl | rfl
          · exact ⟨rfl, Or.inl rfl, rfl, Or.inr ⟨_, ha⟩, _, rfl⟩
          · exact ⟨rfl, Or.inr rfl, rfl, Or.inr ⟨_, ha⟩, _, rfl⟩

theorem ineq_place (p : Prob K n) (vc : Dict Nat Nat) (b : Nat) (e : Dict Nat K × Nat) (out : List (Ln K)) (ho : ineqLines p vc b e = some out) :
    ∀ l ∈ out, l.block = b ∧ l.i = 2 * e.2 + 1 ∧ l.j = l.i ∧ (l.var = 0 ∨ ∃ k, vc.get k = some l.var) ∧ ∃ q, l.val = .num q := by
  unfold ineqLines at ho
  rcases hm : e.1.mapM (ineqTerm p vc b (2 * e.2 + 1)) with _ | ls
  · rw [hm] at ho; cases ho
  · rw [hm] at ho
    simp only [Option.map_some, Option.some.injEq] at ho
    subst ho
    obtain ⟨h1, h2⟩ := mapM_some _ _ _ hm
    intro l hl
    rw [List.mem_append] at hl
    rcases hl with hl | hl
    · rw [h2, ← List.flatMap_def, List.mem_flatMap] at hl
      obtain ⟨t, ht, hl⟩ := hl
      obtain ⟨out, hout⟩ := h1 t ht
      rw [hout, Option.getD_some] at hl
      unfold ineqTerm at hout
      split at hout
      · cases hout; cases hl
      · split at hout
        · cases hout; cases hl
        · rcases ha : vc.get t.1 with _ | a
          · rw [ha] at hout; cases hout
          · rw [ha] at hout
            cases hout
            simp only [List.mem_singleton] at hl
            subst hl
            exact ⟨rfl, rfl, rfl, Or.inr ⟨_, ha⟩, _, rfl⟩
    · split at hl
      · simp only [List.mem_singleton] at hl
        subst hl
        exact ⟨rfl, rfl, rfl, Or.inl rfl, _, rfl⟩
      · cases hl

end Verif.SdpWriter

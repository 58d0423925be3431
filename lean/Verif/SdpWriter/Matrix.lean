import Verif.SdpWriter.Spec
/-
The part of the export that writes the moment matrix.
-/
namespace Verif.SdpWriter
open Verif.Text Verif.State Verif.SdpSolver

set_option linter.unusedSectionVars false

variable {K : Type} {n : Nat} [Field K] [LinearOrder K]

theorem get_mem {β : Type} (d : Dict Nat β) (k : Nat) (v : β) (h : Dict.get d k = some v) : (k, v) ∈ d := by
  induction d with
  | nil => cases h
  | cons t d ih =>
    obtain ⟨a, b⟩ := t
    rw [get_cons] at h
    split at h
    · rename_i e
      cases h
      simp [e]
    · exact List.mem_cons_of_mem _ (ih h)

/-- The numbers of the moments: pairwise different, starting at 1. -/
structure Numbered (w : Work K) : Prop where
  next : w.newVar = w.vc.length + 1
  nodup : w.vc.keys.Nodup
  le : ∀ k a, w.vc.get k = some a → 1 ≤ a ∧ a < w.newVar
  inj : ∀ k k' a, w.vc.get k = some a → w.vc.get k' = some a → k = k'

theorem set_fresh (d : Dict Nat Nat) (k v : Nat) (h : d.get k = none) : d.set k v = d ++ [(k, v)] := by
  induction d with
  | nil => rfl
  | cons t d ih =>
    obtain ⟨a, b⟩ := t
    rw [get_cons] at h
    by_cases e : a = k
    · simp [e] at h
    · simp only [e, if_false] at h
      simp [Dict.set, e, ih h]

theorem numbered_addVar (w : Work K) (h : Numbered w) (b i j k : Nat) (val : Tok K) : Numbered (addVar w b i j k val) := by
  unfold addVar
  rcases hk : w.vc.get k with _ | a
  · dsimp only
    refine ⟨?_, ?_, ?_, ?_⟩
    · simp [set_fresh _ _ _ hk, h.next]
    · rw [set_fresh _ _ _ hk]
      unfold Dict.keys
      rw [List.map_append, List.nodup_append]
      refine ⟨h.nodup, by simp, ?_⟩
      intro x hx y hy e
      simp only [List.map_cons, List.map_nil, List.mem_singleton] at hy
      subst e hy
      obtain ⟨v, hv⟩ := (mem_keys w.vc x).1 hx
      rw [hk] at hv; cases hv
    · intro k' a ha
      rw [get_set] at ha
      split at ha
      · cases ha
        exact ⟨by rw [h.next]; omega, by dsimp only; omega⟩
      · have := h.le _ _ ha
        exact ⟨this.1, by dsimp only; omega⟩
    · intro k1 k2 a h1 h2
      rw [get_set] at h1 h2
      split at h1 <;> split at h2
      · simp_all
      · cases h1
        have := (h.le _ _ h2).2
        omega
      · cases h2
        have := (h.le _ _ h1).2
        omega
      · exact h.inj _ _ _ h1 h2
  · exact ⟨h.next, h.nodup, h.le, h.inj⟩

theorem addVar_get (w : Work K) (b i j k : Nat) (val : Tok K) (k' : Nat) :
    (addVar w b i j k val).vc.get k' = if k' = k then some ((w.vc.get k).getD w.newVar) else w.vc.get k' := by
  unfold addVar
  rcases hk : w.vc.get k with _ | a
  · dsimp only
    rw [get_set]
    by_cases e : k = k'
    · simp [e]
    · have : ¬ k' = k := fun h => e h.symm
      simp [e, this]
  · dsimp only
    by_cases e : k' = k
    · simp [e, hk]
    · simp [e]

/-- The key under which the moment at a position gets its number, if any. -/
def cellKey (p : Prob K n) (c : Fin n × Fin n) : Option Nat :=
  if c.1 ≤ c.2 then
    if p.mm c.1 c.2 ≤ 1 then none
    else if (p.known.get (p.mm c.1 c.2)).isSome then none
    else match p.semi.get (p.mm c.1 c.2) with
      | some s => some s.2
      | none => some (p.mm c.1 c.2)
  else none

/-- The lines of a position, given the final numbering. -/
def cellLine (p : Prob K n) (vc : Dict Nat Nat) (c : Fin n × Fin n) : List (Ln K) :=
  if c.1 ≤ c.2 then
    if p.mm c.1 c.2 = 0 then []
    else if p.mm c.1 c.2 = 1 then [⟨0, 1, c.1 + 1, c.2 + 1, .negOne⟩]
    else match p.known.get (p.mm c.1 c.2) with
      | some q => [⟨0, 1, c.1 + 1, c.2 + 1, .neg |q|⟩]
      | none => match p.semi.get (p.mm c.1 c.2) with
        | some s => [⟨(vc.get s.2).getD 0, 1, c.1 + 1, c.2 + 1, .num s.1⟩]
        | none => [⟨(vc.get (p.mm c.1 c.2)).getD 0, 1, c.1 + 1, c.2 + 1, .one⟩]
  else []

/-- Going on does not change the numbers already given. -/
theorem cellStep_spec (p : Prob K n) (w : Work K) (h : Numbered w) (c : Fin n × Fin n) :
    Numbered (cellStep p w c) ∧ (∀ k a, w.vc.get k = some a → (cellStep p w c).vc.get k = some a)
    ∧ (∀ k, (∃ a, (cellStep p w c).vc.get k = some a) ↔ (∃ a, w.vc.get k = some a) ∨ cellKey p c = some k)
    ∧ (cellStep p w c).lines = w.lines ++ cellLine p (cellStep p w c).vc c := by
  have key : ∀ (k : Nat) (val : Tok K), Numbered (addVar w 1 (c.1 + 1) (c.2 + 1) k val)
      ∧ (∀ k' a, w.vc.get k' = some a → (addVar w 1 (c.1 + 1) (c.2 + 1) k val).vc.get k' = some a)
      ∧ (∀ k', (∃ a, (addVar w 1 (c.1 + 1) (c.2 + 1) k val).vc.get k' = some a) ↔ (∃ a, w.vc.get k' = some a) ∨ some k = some k')
      ∧ (addVar w 1 (c.1 + 1) (c.2 + 1) k val).lines
        = w.lines ++ [⟨((addVar w 1 (c.1 + 1) (c.2 + 1) k val).vc.get k).getD 0, 1, c.1 + 1, c.2 + 1, val⟩] := by
    intro k val
    refine ⟨numbered_addVar w h _ _ _ _ _, ?_, ?_, ?_⟩
    · intro k' a ha
      rw [addVar_get]
      split
      · rename_i e
        subst e
        simp [ha]
      · exact ha
    · intro k'
      rw [addVar_get]
      by_cases e : k' = k
      · simp [e]
      · have : ¬ k = k' := fun h => e h.symm
        simp [e, this]
    · rw [addVar_get, if_pos rfl]
      unfold addVar
      rcases w.vc.get k with _ | a <;> rfl
  unfold cellStep cellKey cellLine
  by_cases hc : c.1 ≤ c.2
  · simp only [hc, if_true]
    by_cases h0 : p.mm c.1 c.2 = 0
    · simp [h0, h]
    · by_cases h1 : p.mm c.1 c.2 = 1
      · simp only [h1, if_neg (show ¬ (1 : Nat) = 0 by omega), if_true, if_pos (show (1 : Nat) ≤ 1 by omega)]
        exact ⟨⟨h.next, h.nodup, h.le, h.inj⟩, fun _ _ h => h, by simp, trivial⟩
      · have h2 : ¬ p.mm c.1 c.2 ≤ 1 := by omega
        simp only [h0, h1, h2, if_false]
        rcases hk : p.known.get (p.mm c.1 c.2) with _ | q
        · rcases hs : p.semi.get (p.mm c.1 c.2) with _ | s
          · simpa using key (p.mm c.1 c.2) .one
          · simpa using key s.2 (.num s.1)
        · simp only [Option.isSome_some, if_true]
          exact ⟨⟨h.next, h.nodup, h.le, h.inj⟩, fun _ _ h => h, by simp, trivial⟩
  · simp only [hc, if_false]
    exact ⟨h, fun _ _ h => h, by simp, by simp⟩

/-- The lines of a position only look at the number of its own moment. -/
theorem cellLine_congr (p : Prob K n) (c : Fin n × Fin n) (vc vc' : Dict Nat Nat)
    (h : ∀ k, cellKey p c = some k → vc.get k = vc'.get k) : cellLine p vc c = cellLine p vc' c := by
  unfold cellLine
  unfold cellKey at h
  by_cases hc : c.1 ≤ c.2
  · simp only [hc, if_true] at h ⊢
    by_cases h0 : p.mm c.1 c.2 = 0
    · simp [h0]
    · by_cases h1 : p.mm c.1 c.2 = 1
      · simp [h1]
      · have h2 : ¬ p.mm c.1 c.2 ≤ 1 := by omega
        simp only [h0, h1, h2, if_false] at h ⊢
        rcases hk : p.known.get (p.mm c.1 c.2) with _ | q
        · rw [hk] at h
          rcases hs : p.semi.get (p.mm c.1 c.2) with _ | s
          · rw [hs] at h
            dsimp only
            rw [h _ (by simp)]
          · rw [hs] at h
            dsimp only
            rw [h s.2 (by simp)]
        · rfl
  · simp [hc]

theorem fold_spec (p : Prob K n) (l : List (Fin n × Fin n)) (w : Work K) (h : Numbered w) :
    Numbered (l.foldl (cellStep p) w) ∧ (∀ k a, w.vc.get k = some a → (l.foldl (cellStep p) w).vc.get k = some a)
    ∧ (∀ k, (∃ a, (l.foldl (cellStep p) w).vc.get k = some a) ↔ (∃ a, w.vc.get k = some a) ∨ ∃ c ∈ l, cellKey p c = some k)
    ∧ (l.foldl (cellStep p) w).lines = w.lines ++ l.flatMap (cellLine p (l.foldl (cellStep p) w).vc) := by
  induction l generalizing w with
  | nil => exact ⟨h, fun _ _ h => h, by simp, by simp⟩
  | cons c l ih =>
    obtain ⟨h1, h2, h3, h4⟩ := cellStep_spec p w h c
    obtain ⟨i1, i2, i3, i4⟩ := ih (cellStep p w c) h1
    rw [List.foldl_cons]
    refine ⟨i1, fun k a ha => i2 _ _ (h2 _ _ ha), ?_, ?_⟩
    · intro k
      rw [i3, h3]
      simp only [List.mem_cons, exists_eq_or_imp, or_assoc]
    · rw [i4, h4, List.flatMap_cons, List.append_assoc]
      congr 2
      refine cellLine_congr p c _ _ fun k hk => ?_
      obtain ⟨a, ha⟩ := (h3 k).2 (Or.inr hk)
      rw [ha, i2 _ _ ha]

theorem start_numbered : Numbered (⟨[], 1, []⟩ : Work K) := ⟨rfl, by simp [Dict.keys], by simp, by simp⟩

/-- The numbering and the lines of the moment matrix. -/
theorem matrix_spec (p : Prob K n) : Numbered (matrixPart p)
    ∧ (∀ k, (∃ a, (matrixPart p).vc.get k = some a) ↔ ∃ c ∈ cells n, cellKey p c = some k)
    ∧ (matrixPart p).lines = (cells n).flatMap (cellLine p (matrixPart p).vc) := by
  obtain ⟨h1, _, h3, h4⟩ := fold_spec p (cells n) ⟨[], 1, []⟩ start_numbered
  refine ⟨h1, fun k => ?_, h4⟩
  refine (h3 k).trans ?_
  simp

theorem mem_cells (c : Fin n × Fin n) : c ∈ cells n := by
  unfold cells
  rw [List.mem_flatMap]
  exact ⟨c.1, List.mem_finRange _, by simp⟩

theorem nodup_cells (n : Nat) : (cells n).Nodup := by
  unfold cells
  rw [List.nodup_flatMap]
  refine ⟨fun i _ => ?_, ?_⟩
  · exact (List.nodup_finRange n).map fun a b e => (Prod.mk.inj e).2
  · refine List.Pairwise.imp ?_ (List.nodup_finRange n)
    intro a b hab
    simp only [Function.onFun, List.disjoint_left, List.mem_map, not_exists, not_and]
    rintro x ⟨j, _, rfl⟩ k _ e
    exact hab (Prod.mk.inj e).1.symm

/-- A moment with a number is neither `Zero`, `One`, known nor semi-known. -/
theorem numbered_unknown (p : Prob K n) (hp : p.Ok) (k a : Nat) (h : (matrixPart p).vc.get k = some a) :
    2 ≤ k ∧ p.known.get k = none ∧ p.semi.get k = none := by
  obtain ⟨c, _, hc⟩ := ((matrix_spec p).2.1 k).1 ⟨a, h⟩
  unfold cellKey at hc
  split at hc
  · split at hc
    · cases hc
    · rename_i h1
      split at hc
      · cases hc
      · rename_i h2
        rcases hs : p.semi.get (p.mm c.1 c.2) with _ | s
        · rw [hs] at hc
          simp only [Option.some.injEq] at hc
          subst hc
          exact ⟨by omega, by simpa using h2, hs⟩
        · rw [hs] at hc
          simp only [Option.some.injEq] at hc
          subst hc
          have : (p.mm c.1 c.2, s) ∈ p.semi := get_mem _ _ _ hs
          obtain ⟨g1, g2, g3⟩ := hp.target_unknown _ this
          refine ⟨g1, ?_, ?_⟩
          · rcases hq : p.known.get s.2 with _ | q
            · rfl
            · exact absurd ((mem_keys _ _).2 ⟨q, hq⟩) g2
          · rcases hq : p.semi.get s.2 with _ | q
            · rfl
            · exact absurd ((mem_keys _ _).2 ⟨q, hq⟩) g3
  · cases hc

/-- `v` and `x` give the same values to the variables, and `v` has the known and proportional values. -/
structure Agree (p : Prob K n) (x v : Nat → K) : Prop where
  num : ∀ k a, (matrixPart p).vc.get k = some a → x a = v k
  zero : v 0 = 0
  one : v 1 = 1
  known : ∀ k q, p.known.get k = some q → v k = q
  semi : ∀ k s, p.semi.get k = some s → v k = s.1 * v s.2

/-- The meaning of a written number. -/
def tokVal : Tok K → K
  | .one => 1
  | .negOne => -1
  | .num q => q
  | .neg q => -q

/-- The contribution of an entry. -/
def contrib (x : Nat → K) (l : Ln K) : K := if l.var = 0 then -tokVal l.val else tokVal l.val * x l.var

/-- Whether an entry is at a place. -/
def Here (b i j : Nat) (l : Ln K) : Prop := l.block = b ∧ ((l.i = i ∧ l.j = j) ∨ (l.i = j ∧ l.j = i))

instance (b i j : Nat) (l : Ln K) : Decidable (Here b i j l) := by unfold Here; infer_instance

/-- The sum of the entries at a place. -/
def total (x : Nat → K) (ls : List (Ln K)) (b i j : Nat) : K := (ls.map fun l => if Here b i j l then contrib x l else 0).sum

theorem total_append (x : Nat → K) (l l' : List (Ln K)) (b i j : Nat) : total x (l ++ l') b i j = total x l b i j + total x l' b i j := by
  simp [total, List.sum_append]

theorem total_flatMap {α : Type} (x : Nat → K) (l : List α) (f : α → List (Ln K)) (b i j : Nat) :
    total x (l.flatMap f) b i j = (l.map fun a => total x (f a) b i j).sum := by
  induction l with
  | nil => simp [total]
  | cons a l ih => rw [List.flatMap_cons, total_append, ih, List.map_cons, List.sum_cons]

theorem total_zero (x : Nat → K) (ls : List (Ln K)) (b i j : Nat) (h : ∀ l ∈ ls, ¬ Here b i j l) : total x ls b i j = 0 := by
  unfold total
  apply List.sum_eq_zero
  intro y hy
  rw [List.mem_map] at hy
  obtain ⟨l, hl, rfl⟩ := hy
  rw [if_neg (h l hl)]

/-- The entries of a position are at that position of block 1. -/
theorem cellLine_place (p : Prob K n) (vc : Dict Nat Nat) (c : Fin n × Fin n) : ∀ l ∈ cellLine p vc c,
    c.1 ≤ c.2 ∧ l.block = 1 ∧ l.i = c.1 + 1 ∧ l.j = c.2 + 1 := by
  intro l hl
  unfold cellLine at hl
  split at hl
  · rename_i hc
    refine ⟨hc, ?_⟩
    split at hl
    · cases hl
    · split at hl
      · simp only [List.mem_singleton] at hl; subst hl; exact ⟨rfl, rfl, rfl⟩
      · split at hl
        · simp only [List.mem_singleton] at hl; subst hl; exact ⟨rfl, rfl, rfl⟩
        · split at hl <;> (simp only [List.mem_singleton] at hl; subst hl; exact ⟨rfl, rfl, rfl⟩)
  · cases hl

/-- The entries of a position add up to the value of its moment. -/
theorem cellLine_value (p : Prob K n) (hk : ∀ t ∈ p.known, 0 ≤ t.2) [IsStrictOrderedRing K] (x v : Nat → K) (h : Agree p x v)
    (c : Fin n × Fin n) (hc : c.1 ≤ c.2) : total x (cellLine p (matrixPart p).vc c) 1 (c.1 + 1) (c.2 + 1) = v (p.mm c.1 c.2) := by
  have hvar : ∀ k, cellKey p c = some k → ∃ a, (matrixPart p).vc.get k = some a ∧ a ≠ 0 ∧ x a = v k := by
    intro k hkey
    obtain ⟨a, ha⟩ := ((matrix_spec p).2.1 k).2 ⟨c, mem_cells c, hkey⟩
    exact ⟨a, ha, by have := ((matrix_spec p).1.le _ _ ha).1; omega, h.num _ _ ha⟩
  have hkey := hvar
  unfold cellKey at hkey
  unfold cellLine
  simp only [hc, if_true] at hkey ⊢
  by_cases h0 : p.mm c.1 c.2 = 0
  · simp [h0, total, h.zero]
  · by_cases h1 : p.mm c.1 c.2 = 1
    · simp [h1, total, Here, contrib, tokVal, h.one]
    · have h2 : ¬ p.mm c.1 c.2 ≤ 1 := by omega
      simp only [h0, h1, h2, if_false] at hkey ⊢
      rcases hq : p.known.get (p.mm c.1 c.2) with _ | q
      · rw [hq] at hkey
        rcases hs : p.semi.get (p.mm c.1 c.2) with _ | s
        · rw [hs] at hkey
          obtain ⟨a, ha, hne, hx⟩ := hkey (p.mm c.1 c.2) (by simp)
          simp [total, Here, contrib, tokVal, ha, hne, hx]
        · rw [hs] at hkey
          obtain ⟨a, ha, hne, hx⟩ := hkey s.2 (by simp)
          simp [total, Here, contrib, tokVal, ha, hne, hx, h.semi _ _ hs]
      · simp [total, Here, contrib, tokVal, h.known _ _ hq, abs_of_nonneg (hk _ (get_mem _ _ _ hq))]

theorem sum_single {α : Type} [DecidableEq α] (l : List α) (hl : l.Nodup) (a : α) (ha : a ∈ l) (f : α → K) (h : ∀ b ∈ l, b ≠ a → f b = 0) :
    (l.map f).sum = f a := by
  induction l with
  | nil => cases ha
  | cons b l ih =>
    rw [List.nodup_cons] at hl
    rw [List.map_cons, List.sum_cons]
    by_cases e : b = a
    · subst e
      have : (l.map f).sum = 0 := by
        apply List.sum_eq_zero
        intro y hy
        obtain ⟨c, hc, rfl⟩ := List.mem_map.1 hy
        exact h c (by simp [hc]) fun e => hl.1 (e ▸ hc)
      rw [this, add_zero]
    · have hm : a ∈ l := by
        rcases List.mem_cons.1 ha with h | h
        · exact absurd h.symm e
        · exact h
      rw [h b (by simp) e, zero_add, ih hl.2 hm fun c hc => h c (by simp [hc])]

/-- The first block is the moment matrix. -/
theorem matrix_total [IsStrictOrderedRing K] (p : Prob K n) (hp : p.Ok) (hk : ∀ t ∈ p.known, 0 ≤ t.2) (x v : Nat → K) (h : Agree p x v) (i j : Fin n) :
    total x (matrixPart p).lines 1 (i.val + 1) (j.val + 1) = v (p.mm i j) := by
  rw [(matrix_spec p).2.2, total_flatMap]
  have main : ∀ c : Fin n × Fin n, c.1 ≤ c.2 → (c = (i, j) ∨ c = (j, i)) →
      ((cells n).map fun a => total x (cellLine p (matrixPart p).vc a) 1 (i.val + 1) (j.val + 1)).sum = v (p.mm i j) := by
    intro c hc e
    rw [sum_single (cells n) (nodup_cells n) c (mem_cells c)]
    · rcases e with rfl | rfl
      · exact cellLine_value p hk x v h _ hc
      · rw [hp.symm i j, ← cellLine_value p hk x v h _ hc]
        unfold total
        congr 1
        apply List.map_congr_left
        intro l _
        have : Here 1 (i.val + 1) (j.val + 1) l ↔ Here 1 (j.val + 1) (i.val + 1) l := by unfold Here; tauto
        by_cases hh : Here 1 (i.val + 1) (j.val + 1) l
        · rw [if_pos hh, if_pos (this.1 hh)]
        · rw [if_neg hh, if_neg fun g => hh (this.2 g)]
    · intro b _ hb
      apply total_zero
      intro l hl hh
      obtain ⟨g0, g1, g2, g3⟩ := cellLine_place p _ b l hl
      obtain ⟨_, hh⟩ := hh
      rw [g2, g3] at hh
      apply hb
      rcases e with rfl | rfl
      · rcases hh with ⟨e1, e2⟩ | ⟨e1, e2⟩
        · exact Prod.ext (Fin.ext (by simpa using e1)) (Fin.ext (by simpa using e2))
        · have g0' : b.1.val ≤ b.2.val := g0
          have hc' : i.val ≤ j.val := hc
          exact Prod.ext (Fin.ext (by show b.1.val = i.val; omega)) (Fin.ext (by show b.2.val = j.val; omega))
      · rcases hh with ⟨e1, e2⟩ | ⟨e1, e2⟩
        · have g0' : b.1.val ≤ b.2.val := g0
          have hc' : j.val ≤ i.val := hc
          exact Prod.ext (Fin.ext (by show b.1.val = j.val; omega)) (Fin.ext (by show b.2.val = i.val; omega))
        · exact Prod.ext (Fin.ext (by simpa using e1)) (Fin.ext (by simpa using e2))
  rcases le_total i j with hij | hij
  · exact main (i, j) hij (Or.inl rfl)
  · exact main (j, i) hij (Or.inr rfl)

end Verif.SdpWriter

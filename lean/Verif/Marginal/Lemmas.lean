import Verif.Marginal.Spec
import Verif.Scenario.Lemmas
import Mathlib.Data.List.GetD
/-
Sums over array axes.
-/
namespace Verif.Marginal
open Verif.Scenario (ndindex mem_ndindex)

variable {R : Type*} [AddCommMonoid R]

theorem sum_filter {α : Type*} (l : List α) (q : α → Prop) [DecidablePred q] (g : α → R) :
    ((l.filter fun a => decide (q a)).map g).sum = (l.map fun a => if q a then g a else 0).sum := by
  induction l with
  | nil => rfl
  | cons a t ih =>
    by_cases h : q a
    · simp [h, ih]
    · simp [h, ih]

theorem sum_flatMap {α β : Type*} (l : List α) (g : α → List β) (f : β → R) :
    ((l.flatMap g).map f).sum = (l.map fun a => ((g a).map f).sum).sum := by
  induction l with
  | nil => rfl
  | cons a t ih => simp [ih]

theorem sum_zero {α : Type*} (l : List α) : (l.map fun _ => (0 : R)).sum = 0 := by
  induction l with
  | nil => rfl
  | cons a t ih => simp [ih]

theorem sum_range_single (d o : Nat) (ho : o < d) (g : Nat → R) : ((List.range d).map fun i => if i = o then g i else 0).sum = g o := by
  induction d with
  | zero => omega
  | succ d ih =>
    rw [List.range_succ, List.map_append, List.sum_append]
    by_cases h : o = d
    · subst h
      have : ((List.range o).map fun i => if i = o then g i else 0) = (List.range o).map fun _ => 0 := by
        apply List.map_congr_left
        intro i hi
        have := List.mem_range.1 hi
        rw [if_neg (by omega)]
      rw [this, sum_zero]
      simp
    · rw [ih (by omega)]
      simp [show d ≠ o by omega]

theorem sumAxes_plain (ins : List Nat) (f : List Nat → R) (rest : List Nat) (h : rest.length = ins.length) :
    sumAxes (ins.map fun d => (d, false)) f rest = f rest := by
  induction ins generalizing f rest with
  | nil =>
    have : rest = [] := List.length_eq_zero_iff.1 (by simpa using h)
    subst this
    rfl
  | cons d ins ih =>
    rcases rest with _ | ⟨i, rest⟩
    · simp at h
    · rw [List.map_cons, sumAxes, ih _ _ (by simpa using h)]

/-- The sum over the axes of the absent parties is a sum over all joint outcomes that agree with the atom. -/
theorem sumAxes_atom (outs ins : List Nat) (k : Nat) (atom : List Row) (f : List Nat → R) (rest : List Nat) (hr : rest.length = ins.length)
    (hs : atom.Pairwise fun s t => s.party < t.party) (hp : ∀ t ∈ atom, k + 1 ≤ t.party) (hl : ∀ t ∈ atom, t.party ≤ k + outs.length)
    (ho : ∀ t ∈ atom, ∃ d, outs[t.party - 1 - k]? = some d ∧ t.outcome < d) :
    sumAxes (((outs.zipIdx k).map fun t => (t.1, !(atom.any fun row => row.party - 1 == t.2))) ++ ins.map fun d => (d, false)) f
      (atom.map (·.outcome) ++ rest) =
    ((ndindex outs).map fun a => if ∀ t ∈ atom, a[t.party - 1 - k]? = some t.outcome then f (a ++ rest) else 0).sum := by
  induction outs generalizing k atom f with
  | nil =>
    have : atom = [] := by
      rcases atom with _ | ⟨t, atom⟩
      · rfl
      · have h1 := hp t (by simp); have h2 := hl t (by simp); simp at h2; omega
    subst this
    simp [ndindex, sumAxes_plain ins f rest hr]
  | cons d ds ih =>
    rw [List.zipIdx_cons, List.map_cons, List.cons_append]
    simp only [ndindex]
    rw [sum_flatMap]
    simp only [List.map_map, Function.comp_def]
    by_cases hk : ∃ t ∈ atom, t.party = k + 1
    · -- the party is present: it is the first row
      obtain ⟨x, atom', rfl⟩ : ∃ x atom', atom = x :: atom' := by
        rcases atom with _ | ⟨x, atom'⟩
        · simp at hk
        · exact ⟨x, atom', rfl⟩
      have hx : x.party = k + 1 := by
        obtain ⟨t, ht, e⟩ := hk
        rcases List.mem_cons.1 ht with rfl | ht
        · exact e
        · have := (List.pairwise_cons.1 hs).1 t ht
          have := hp x (by simp)
          omega
      have hany : ((x :: atom').any fun row => row.party - 1 == k) = true := by simp [hx]
      simp only [hany, Bool.not_true, List.map_cons, List.cons_append]
      rw [sumAxes]
      have hp' : ∀ t ∈ atom', k + 1 + 1 ≤ t.party := by
        intro t ht
        have := (List.pairwise_cons.1 hs).1 t ht
        omega
      have hmask : ((ds.zipIdx (k + 1)).map fun t => (t.1, !((x :: atom').any fun row => row.party - 1 == t.2))) =
          (ds.zipIdx (k + 1)).map fun t => (t.1, !(atom'.any fun row => row.party - 1 == t.2)) := by
        apply List.map_congr_left
        intro t ht
        have : k + 1 ≤ t.2 := by
          have := List.le_snd_of_mem_zipIdx ht
          omega
        rw [List.any_cons]
        have e : (x.party - 1 == t.2) = false := by rw [beq_eq_false_iff_ne]; omega
        rw [e, Bool.false_or]
      rw [hmask, ih (k + 1) atom' (fun t => f (x.outcome :: t)) (List.pairwise_cons.1 hs).2 hp'
        (fun t ht => by have := hl t (by simp [ht]); simp at this; omega)]
      · obtain ⟨d', hd', hlt⟩ := ho x (by simp)
        rw [hx] at hd'
        have ed : k + 1 - 1 - k = 0 := by omega
        rw [ed] at hd'
        simp only [List.getElem?_cons_zero, Option.some.injEq] at hd'
        subst hd'
        have key : ∀ i ∈ List.range d, ((ndindex ds).map fun a => if ∀ t ∈ x :: atom', (i :: a)[t.party - 1 - k]? = some t.outcome then f (i :: (a ++ rest)) else 0).sum =
            if i = x.outcome then ((ndindex ds).map fun a => if ∀ t ∈ atom', a[t.party - 1 - (k + 1)]? = some t.outcome then f (i :: (a ++ rest)) else 0).sum else 0 := by
          intro i _
          by_cases hi : i = x.outcome
          · rw [if_pos hi]
            congr 1
            apply List.map_congr_left
            intro a _
            have : (∀ t ∈ x :: atom', (i :: a)[t.party - 1 - k]? = some t.outcome) ↔ ∀ t ∈ atom', a[t.party - 1 - (k + 1)]? = some t.outcome := by
              simp only [List.mem_cons, forall_eq_or_imp, hx, ed, List.getElem?_cons_zero, hi, true_and]
              apply forall_congr'
              intro t
              apply imp_congr_right
              intro ht
              have e : t.party - 1 - k = (t.party - 1 - (k + 1)) + 1 := by have := hp' t ht; omega
              rw [e, List.getElem?_cons_succ]
            simp only [this]
          · rw [if_neg hi]
            have : ((ndindex ds).map fun a => if ∀ t ∈ x :: atom', (i :: a)[t.party - 1 - k]? = some t.outcome then f (i :: (a ++ rest)) else 0) =
                (ndindex ds).map fun _ => 0 := by
              apply List.map_congr_left
              intro a _
              rw [if_neg]
              intro h
              have := h x (by simp)
              rw [hx, ed] at this
              simp at this
              exact hi this
            rw [this, sum_zero]
        rw [List.map_congr_left key]
        rw [sum_range_single d x.outcome hlt]
      · intro t ht
        obtain ⟨d', h1, h2⟩ := ho t (by simp [ht])
        refine ⟨d', ?_, h2⟩
        have e : t.party - 1 - k = (t.party - 1 - (k + 1)) + 1 := by have := hp' t ht; omega
        rw [e, List.getElem?_cons_succ] at h1
        exact h1
    · -- the party is absent
      have hp' : ∀ t ∈ atom, k + 1 + 1 ≤ t.party := by
        intro t ht
        have h1 := hp t ht
        have h2 : t.party ≠ k + 1 := fun e => hk ⟨t, ht, e⟩
        omega
      have hany : (atom.any fun row => row.party - 1 == k) = false := by
        rw [List.any_eq_false]
        intro t ht
        have := hp' t ht
        simp; omega
      simp only [hany, Bool.not_false]
      rw [sumAxes]
      congr 1
      apply List.map_congr_left
      intro i _
      rw [ih (k + 1) atom (fun t => f (i :: t)) hs hp' (fun t ht => by have := hl t ht; simp at this; omega)]
      · congr 1
        apply List.map_congr_left
        intro a _
        have : (∀ t ∈ atom, (i :: a)[t.party - 1 - k]? = some t.outcome) ↔ ∀ t ∈ atom, a[t.party - 1 - (k + 1)]? = some t.outcome := by
          apply forall_congr'
          intro t
          apply imp_congr_right
          intro ht
          have e : t.party - 1 - k = (t.party - 1 - (k + 1)) + 1 := by have := hp' t ht; omega
          rw [e, List.getElem?_cons_succ]
        simp only [this, List.cons_append]
      · intro t ht
        obtain ⟨d', h1, h2⟩ := ho t ht
        refine ⟨d', ?_, h2⟩
        have e : t.party - 1 - k = (t.party - 1 - (k + 1)) + 1 := by have := hp' t ht; omega
        rw [e, List.getElem?_cons_succ] at h1
        exact h1

/-! ### the settings -/

theorem inputList_length (n : Nat) (atom : List Row) : (inputList n atom).length = n := by
  have key : ∀ (atom : List Row) (l : List Nat), (atom.foldl (fun l t => l.set (t.party - 1) t.setting) l).length = l.length := by
    intro atom
    induction atom with
    | nil => intro l; rfl
    | cons t atom ih => intro l; rw [List.foldl_cons, ih, List.length_set]
  unfold inputList
  rw [key]
  simp

theorem inputList_getElem? {n : Nat} {atom : List Row} (hs : atom.Pairwise fun s t => s.party < t.party) (hp : ∀ t ∈ atom, 1 ≤ t.party) (q : Nat) :
    (inputList n atom)[q]? = if q < n then some (((atom.find? fun t => t.party - 1 == q).map (·.setting)).getD 0) else none := by
  have key : ∀ (atom : List Row) (l : List Nat), (atom.Pairwise fun s t => s.party < t.party) → (∀ t ∈ atom, 1 ≤ t.party) → q < l.length →
      (atom.foldl (fun l t => l.set (t.party - 1) t.setting) l)[q]? =
        some (((atom.find? fun t => t.party - 1 == q).map (·.setting)).getD (l.getD q 0)) := by
    intro atom
    induction atom with
    | nil => intro l _ _ h; simp [h]
    | cons t atom ih =>
      intro l hs hp h
      rw [List.foldl_cons, ih _ (List.pairwise_cons.1 hs).2 (fun t ht => hp t (by simp [ht])) (by simpa using h)]
      rw [List.find?_cons]
      by_cases e : t.party - 1 = q
      · have h1 : (t.party - 1 == q) = true := by simpa using e
        rw [h1]
        have : atom.find? (fun t => t.party - 1 == q) = none := by
          rw [List.find?_eq_none]
          intro s hs'
          have h2 := (List.pairwise_cons.1 hs).1 s hs'
          have h3 := hp t (by simp)
          simp; omega
        rw [this]
        simp [e, h]
      · have h1 : (t.party - 1 == q) = false := by simpa using e
        rw [h1]
        simp [List.getD_eq_getElem?_getD, List.getElem?_set, e]
  by_cases h : q < n
  · rw [if_pos h]
    have := key atom (List.replicate n 0) hs hp (by simpa using h)
    rw [inputList, this]
    simp [h]
  · rw [if_neg h]
    exact List.getElem?_eq_none (by rw [inputList_length]; omega)

theorem inputList_settingsOf {outs : List Nat} {atom : List Row} (h : GoodAtom outs atom) :
    SettingsOf outs.length atom (inputList outs.length atom) := by
  refine ⟨inputList_length _ _, ?_⟩
  intro t ht
  have h1 := h.pos t ht
  have h2 := h.le t ht
  rw [inputList_getElem? h.sorted h.pos, if_pos (by omega)]
  congr 1
  have : atom.find? (fun s => s.party - 1 == t.party - 1) = some t := by
    have hs := h.sorted
    have hp := h.pos
    clear h h2
    induction atom with
    | nil => simp at ht
    | cons s atom ih =>
      rw [List.find?_cons]
      rcases List.mem_cons.1 ht with rfl | ht'
      · simp
      · have e : (s.party - 1 == t.party - 1) = false := by
          have h3 := (List.pairwise_cons.1 hs).1 t ht'
          have h4 := hp s (by simp)
          rw [beq_eq_false_iff_ne]; omega
        rw [e]
        exact ih ht' (List.pairwise_cons.1 hs).2 (fun t ht => hp t (by simp [ht]))
  rw [this]
  rfl

/-! ### exchanging sums -/

theorem sum_add {β : Type*} (m : List β) (u v : β → R) : (m.map fun b => u b + v b).sum = (m.map u).sum + (m.map v).sum := by
  induction m with
  | nil => simp
  | cons b m ih => simp only [List.map_cons, List.sum_cons, ih]; exact add_add_add_comm _ _ _ _

theorem sum_comm' {α β : Type*} (l : List α) (m : List β) (g : α → β → R) :
    (l.map fun a => (m.map fun b => g a b).sum).sum = (m.map fun b => (l.map fun a => g a b).sum).sum := by
  induction l with
  | nil => simp [sum_zero]
  | cons a t ih =>
    simp only [List.map_cons, List.sum_cons, ih]
    exact (sum_add m _ _).symm

/-- Summing over all index tuples, coordinate `p` last. -/
theorem sum_ndindex_split (outs : List Nat) (p d : Nat) (hp : outs[p]? = some d) (g : List Nat → R) :
    ((ndindex outs).map g).sum =
      ((ndindex (outs.set p 1)).map fun b => ((List.range d).map fun i => g (b.set p i)).sum).sum := by
  induction outs generalizing p g with
  | nil => simp at hp
  | cons e outs ih =>
    rcases p with _ | p
    · simp only [List.getElem?_cons_zero, Option.some.injEq] at hp
      subst hp
      simp only [List.set_cons_zero, ndindex]
      rw [sum_flatMap, sum_flatMap]
      simp only [List.map_map, Function.comp_def, List.set_cons_zero, show List.range 1 = [0] from rfl, List.map_cons, List.map_nil, List.sum_cons,
        List.sum_nil, add_zero]
      exact sum_comm' _ _ fun i a => g (i :: a)
    · simp only [List.getElem?_cons_succ] at hp
      simp only [List.set_cons_succ, ndindex]
      rw [sum_flatMap, sum_flatMap]
      congr 1
      apply List.map_congr_left
      intro i _
      simp only [List.map_map, Function.comp_def, List.set_cons_succ]
      exact ih p hp fun a => g (i :: a)

end Verif.Marginal

import Verif.Writers.LpSpec
import Mathlib.Data.List.Forall2
import Mathlib.Algebra.BigOperators.Group.List.Lemmas
import Mathlib.Tactic.Ring
import Mathlib.Tactic.Linarith
/-
Lemmas about renaming of variables and about the arithmetic of a written row.
-/
namespace Verif.Writers

open Verif.Text Verif.State

set_option linter.unusedSectionVars false

variable {V K : Type} [DecidableEq V]

/-! ### Numbering of variables -/

theorem varIdxAux_inv (xs : List V) (i : Nat) (d : Dict V Nat) (hlt : ∀ x j, Dict.get d x = some j → j < i)
    (hinj : ∀ x y j, Dict.get d x = some j → Dict.get d y = some j → x = y) :
    ∀ x y j, Dict.get (varIdxAux i d xs) x = some j → Dict.get (varIdxAux i d xs) y = some j → x = y := by
  induction xs generalizing i d with
  | nil => exact hinj
  | cons a xs ih =>
    apply ih (i + 1) (d.set a i)
    · intro x j h
      rw [get_set] at h
      split at h
      · simp at h; omega
      · have := hlt x j h; omega
    · intro x y j hx hy
      rw [get_set] at hx hy
      split at hx <;> split at hy
      · subst_vars; rfl
      · simp at hx; have := hlt y j hy; omega
      · simp at hy; have := hlt x j hx; omega
      · exact hinj x y j hx hy

theorem varIdx_inj (xs : List V) (x y : V) (j : Nat) (hx : Dict.get (varIdx xs) x = some j)
    (hy : Dict.get (varIdx xs) y = some j) : x = y :=
  varIdxAux_inv xs 0 [] (by simp) (by simp) x y j hx hy

theorem varIdxAux_some (xs : List V) (i : Nat) (d : Dict V Nat) (x : V) (h : x ∈ xs ∨ x ∈ d.keys) :
    ∃ j, Dict.get (varIdxAux i d xs) x = some j := by
  induction xs generalizing i d with
  | nil =>
    rcases h with h | h
    · simp at h
    · exact (mem_keys d x).1 h
  | cons a xs ih =>
    apply ih
    rcases h with h | h
    · rcases List.mem_cons.1 h with rfl | h
      · exact Or.inr ((mem_keys _ _).2 ⟨i, by simp [get_set]⟩)
      · exact Or.inl h
    · refine Or.inr ((mem_keys _ _).2 ?_)
      obtain ⟨v, hv⟩ := (mem_keys _ _).1 h
      by_cases e : a = x
      · exact ⟨i, by simp [get_set, e]⟩
      · exact ⟨v, by simp [get_set, e, hv]⟩

theorem varIdx_some (xs : List V) (x : V) (h : x ∈ xs) : ∃ j, Dict.get (varIdx xs) x = some j :=
  varIdxAux_some xs 0 [] x (Or.inl h)

/-- Entry by entry, a renamed dictionary is the original one. -/
def Renamed (ix : Dict V Nat) (d : Dict V K) (d' : Dict Nat K) : Prop :=
  List.Forall₂ (fun t t' => Dict.get ix t.1 = some t'.1 ∧ t'.2 = t.2) d d'

theorem set_new {α β : Type} [DecidableEq α] (d : Dict α β) (k : α) (v : β) (h : k ∉ d.keys) : d.set k v = d ++ [(k, v)] := by
  induction d with
  | nil => rfl
  | cons t d ih =>
    obtain ⟨a, b⟩ := t
    simp only [Dict.keys, List.map_cons, List.mem_cons, not_or] at h
    have : ¬ a = k := fun e => h.1 e.symm
    simp only [Dict.set, this, if_false, List.cons_append]
    rw [ih h.2]

theorem mem_set_cases {α β : Type} [DecidableEq α] (d : Dict α β) (k : α) (v : β) (t : α × β) (h : t ∈ d.set k v) : t = (k, v) ∨ t ∈ d := by
  induction d with
  | nil => simpa [Dict.set] using h
  | cons s d ih =>
    obtain ⟨a, b⟩ := s
    simp only [Dict.set] at h
    split at h
    · rename_i e
      rcases List.mem_cons.1 h with h | h
      · subst e; exact Or.inl h
      · exact Or.inr (List.mem_cons_of_mem _ h)
    · rcases List.mem_cons.1 h with h | h
      · exact Or.inr (by simp [h])
      · rcases ih h with h | h
        · exact Or.inl h
        · exact Or.inr (List.mem_cons_of_mem _ h)

theorem forall₂_left {A B : Type} {R : A → B → Prop} {l : List A} {r : List B} (h : List.Forall₂ R l r) {a : A} (ha : a ∈ l) : ∃ b ∈ r, R a b := by
  induction h with
  | nil => simp at ha
  | @cons x y l r hxy _ ih =>
    rcases List.mem_cons.1 ha with rfl | ha
    · exact ⟨y, by simp, hxy⟩
    · obtain ⟨b, hb, hr⟩ := ih ha
      exact ⟨b, by simp [hb], hr⟩

theorem foldl_bind_none {α β : Type} (f : β → α → Option β) (l : List α) :
    l.foldl (fun acc t => acc.bind fun a => f a t) none = none := by
  induction l with
  | nil => rfl
  | cons a l ih => simpa using ih

theorem rename_aux (ix : Dict V Nat) (hinj : ∀ x y j, Dict.get ix x = some j → Dict.get ix y = some j → x = y)
    (d : Dict V K) (hd : (Dict.keys d).Nodup) (acc : Dict Nat K) (d' : Dict Nat K)
    (hfresh : ∀ x ∈ Dict.keys d, ∀ j, Dict.get ix x = some j → j ∉ Dict.keys acc)
    (h : d.foldl (fun acc t => acc.bind fun a => (Dict.get ix t.1).map fun i => a.set i t.2) (some acc) = some d') :
    ∃ e, d' = acc ++ e ∧ Renamed ix d e := by
  induction d generalizing acc with
  | nil =>
    simp at h
    exact ⟨[], by simp [h], List.Forall₂.nil⟩
  | cons t d ih =>
    simp only [Dict.keys, List.map_cons, List.nodup_cons] at hd
    rw [List.foldl_cons] at h
    rcases hi : Dict.get ix t.1 with _ | i
    · rw [hi] at h
      simp only [Option.bind_some, Option.map_none] at h
      have := foldl_bind_none (fun (a : Dict Nat K) (t : V × K) => (Dict.get ix t.1).map fun i => a.set i t.2) d
      rw [this] at h
      simp at h
    · rw [hi] at h
      simp only [Option.bind_some, Option.map_some] at h
      have hn : i ∉ Dict.keys acc := hfresh t.1 (by simp [Dict.keys]) i hi
      rw [set_new acc i t.2 hn] at h
      obtain ⟨e, he, hr⟩ := ih hd.2 (acc ++ [(i, t.2)]) (by
        intro x hx j hj
        simp only [Dict.keys, List.map_append, List.mem_append, List.map_cons, List.map_nil, List.mem_singleton, not_or]
        refine ⟨?_, ?_⟩
        · exact hfresh x (by simp only [Dict.keys, List.map_cons, List.mem_cons]; exact Or.inr hx) j hj
        · rintro rfl
          have := hinj x t.1 j hj hi
          subst this
          exact hd.1 hx) h
      refine ⟨(i, t.2) :: e, by simp [he], List.Forall₂.cons ⟨hi, rfl⟩ hr⟩

theorem rename_renamed (xs : List V) (d : Dict V K) (d' : Dict Nat K) (hd : (Dict.keys d).Nodup)
    (h : rename (varIdx xs) d = some d') : Renamed (varIdx xs) d d' := by
  obtain ⟨e, he, hr⟩ := rename_aux (varIdx xs) (varIdx_inj xs) d hd [] d' (by simp [Dict.keys]) h
  simp at he
  rw [he]
  exact hr

theorem Renamed.get {ix : Dict V Nat} (hinj : ∀ x y j, Dict.get ix x = some j → Dict.get ix y = some j → x = y)
    {d : Dict V K} {d' : Dict Nat K} (h : Renamed ix d d') (x : V) (i : Nat) (hi : Dict.get ix x = some i) :
    Dict.get d' i = Dict.get d x := by
  induction h with
  | nil => rfl
  | @cons t t' d d' h _ ih =>
    obtain ⟨a, b⟩ := t
    obtain ⟨a', b'⟩ := t'
    simp only at h
    rw [get_cons, get_cons, ih]
    by_cases e : a = x
    · subst e
      rw [hi] at h
      have : a' = i := by simpa using h.1.symm
      simp [this, h.2]
    · have : ¬ a' = i := by
        rintro rfl
        exact e (hinj a x a' h.1 hi)
      simp [e, this]

theorem Renamed.nodup {ix : Dict V Nat} (hinj : ∀ x y j, Dict.get ix x = some j → Dict.get ix y = some j → x = y)
    {d : Dict V K} {d' : Dict Nat K} (h : Renamed ix d d') (hd : (Dict.keys d).Nodup) : (Dict.keys d').Nodup := by
  induction h with
  | nil => simp [Dict.keys]
  | @cons t t' d d' h hr ih =>
    simp only [Dict.keys, List.map_cons, List.nodup_cons] at hd ⊢
    refine ⟨?_, ih hd.2⟩
    intro hm
    apply hd.1
    obtain ⟨v, hv⟩ := (mem_keys d' t'.1).1 hm
    rw [Renamed.get hinj hr t.1 t'.1 h.1] at hv
    exact (mem_keys d t.1).2 ⟨v, hv⟩

theorem Renamed.keys {ix : Dict V Nat} {d : Dict V K} {d' : Dict Nat K} (h : Renamed ix d d') :
    List.Forall₂ (fun x i => Dict.get ix x = some i) d.keys d'.keys := by
  induction h with
  | nil => exact List.Forall₂.nil
  | cons h _ ih => exact List.Forall₂.cons h.1 ih

theorem Renamed.lin [Field K] {ix : Dict V Nat} {d : Dict V K} {d' : Dict Nat K} (h : Renamed ix d d') (w : V → K) (v : Nat → K)
    (hv : ∀ x i, Dict.get ix x = some i → v i = w x) : lin d' v = lin d w := by
  unfold Writers.lin
  induction h with
  | nil => rfl
  | cons h _ ih => simp only [List.map_cons, List.sum_cons, ih, h.2, hv _ _ h.1]

/-! ### The arithmetic of a written row -/

theorem get_of_nodup_mem {α β : Type} [DecidableEq α] (d : Dict α β) (hd : d.keys.Nodup) (t : α × β) (h : t ∈ d) : Dict.get d t.1 = some t.2 := by
  induction d with
  | nil => simp at h
  | cons s d ih =>
    obtain ⟨a, b⟩ := s
    simp only [Dict.keys, List.map_cons, List.nodup_cons] at hd
    rw [get_cons]
    rcases List.mem_cons.1 h with rfl | h'
    · simp
    · have : ¬ a = t.1 := by
        rintro rfl
        exact hd.1 (List.mem_map.2 ⟨t, h', rfl⟩)
      simp only [this, if_false]
      exact ih hd.2 h'

theorem get_of_mem_pair {α β : Type} [DecidableEq α] (d : Dict α β) (k : α) (v : β) (h : Dict.get d k = some v) : (k, v) ∈ d := by
  induction d with
  | nil => simp at h
  | cons s d ih =>
    obtain ⟨a, b⟩ := s
    rw [get_cons] at h
    split at h
    · simp_all
    · exact List.mem_cons_of_mem _ (ih h)

theorem lin_keys [Field K] (d : Dict Nat K) (hd : d.keys.Nodup) (v : Nat → K) : lin d v = (d.keys.map fun x => at' d x * v x).sum := by
  unfold lin Dict.keys
  rw [List.map_map]
  congr 1
  apply List.map_congr_left
  intro t ht
  simp [at', get_of_nodup_mem d hd t ht]

theorem sum_filter_split [Field K] (xs : List Nat) (p : Nat → Bool) (f : Nat → K) :
    ((xs.filter p).map f).sum + ((xs.filter fun x => !p x).map f).sum = (xs.map f).sum := by
  induction xs with
  | nil => simp
  | cons x xs ih =>
    by_cases h : p x = true
    · simp [h, ← ih, add_assoc]
    · simp [h, ← ih]; ring

/-- The unknown part of a row plus its constant part is the value of the constraint. -/
theorem row_value [Field K] (ord : List Nat → List Nat) (hord : ∀ l, (ord l).Perm l) (known d : Dict Nat K) (hd : (Dict.keys d).Nodup)
    (v : Nat → K) (hk : ∀ x c, Dict.get known x = some c → v x = c) :
    ((unknownPart ord known d).map fun x => at' d x * v x).sum + constPart ord known d = lin d v := by
  rw [lin_keys d hd v, ← sum_filter_split (Dict.keys d) (fun x => (Dict.get known x).isSome)]
  rw [add_comm]
  congr 1
  · unfold constPart knownPart
    rw [((hord _).map _).sum_eq]
    congr 1
    apply List.map_congr_left
    intro x hx
    obtain ⟨c, hc⟩ := Option.isSome_iff_exists.1 (List.mem_filter.1 hx).2
    rw [hk x c hc]
    simp [at', hc]
  · unfold unknownPart
    rw [((hord _).map _).sum_eq]

theorem unknownPart_eq_nil (ord : List Nat → List Nat) (hord : ∀ l, (ord l).Perm l) (known d : Dict Nat K) :
    unknownPart ord known d = [] ↔ ∀ x ∈ Dict.keys d, x ∈ Dict.keys known := by
  unfold unknownPart
  have : ord (List.filter (fun x => !(Dict.get known x).isSome) (Dict.keys d)) = []
      ↔ List.filter (fun x => !(Dict.get known x).isSome) (Dict.keys d) = [] := by
    have := (hord (List.filter (fun x => !(Dict.get known x).isSome) (Dict.keys d))).length_eq
    rw [← List.length_eq_zero_iff, ← List.length_eq_zero_iff, this]
  rw [this, List.filter_eq_nil_iff]
  constructor
  · intro h x hx
    have := h x hx
    rw [mem_keys]
    exact Option.ne_none_iff_exists'.1 (by simpa using this)
  · intro h x hx
    have := (mem_keys _ _).1 (h x hx)
    simp [Option.isSome_iff_exists.2 this]

end Verif.Writers

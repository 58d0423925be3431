import Verif.Views.Model
import Verif.State.LpProps
import Verif.Writers.LpProps
import Mathlib.Tactic.Ring
import Mathlib.Tactic.Linarith
/-
Rows of matrices and their named versions.
-/
namespace Verif.Views
open Verif.Common Verif.Moment Verif.State Verif.Writers

variable {K : Type}

theorem foldl_set_eq {α β γ : Type} [DecidableEq α] (f : γ → α) (g : γ → β) (l : List γ) (d : Dict α β)
    (h : (d.keys ++ l.map f).Nodup) : l.foldl (fun d t => d.set (f t) (g t)) d = d ++ l.map fun t => (f t, g t) := by
  induction l generalizing d with
  | nil => simp
  | cons t l ih =>
    have h1 : f t ∉ d.keys := by
      intro hm
      have := (List.nodup_append.1 h).2.2 _ hm (f t) (by simp)
      exact this rfl
    rw [List.foldl_cons, set_new d _ _ h1, ih]
    · simp
    · have : Dict.keys (d ++ [(f t, g t)]) ++ l.map f = d.keys ++ (t :: l).map f := by simp [Dict.keys]
      rw [this]
      exact h

theorem sum_ite_key (u : List Nat) (hu : u.Nodup) (c : Nat) (hc : c ∈ u) (v : Rat) (x : Nat → Rat) :
    (u.map fun i => (if c = i then v else 0) * x i).sum = v * x c := by
  induction u with
  | nil => simp at hc
  | cons i u ih =>
    rw [List.nodup_cons] at hu
    rw [List.map_cons, List.sum_cons]
    by_cases e : c = i
    · subst e
      have : (u.map fun i => (if c = i then v else 0) * x i).sum = 0 := by
        apply List.sum_eq_zero
        intro q hq
        obtain ⟨j, hj, rfl⟩ := List.mem_map.1 hq
        have : c ≠ j := fun e => hu.1 (e ▸ hj)
        simp [this]
      rw [this]
      simp
    · rcases List.mem_cons.1 hc with rfl | hc
      · exact absurd rfl e
      · rw [ih hu.2 hc]
        simp [e]

theorem sum_by_key (u : List Nat) (hu : u.Nodup) (r : Dict Nat Rat) (hr : ∀ t ∈ r, t.1 ∈ u) (x : Nat → Rat) :
    (u.map fun c => ((r.filter fun t => decide (t.1 = c)).map Prod.snd).sum * x c).sum = dictVal r x := by
  induction r with
  | nil => simp [dictVal]
  | cons t r ih =>
    have h1 : dictVal (t :: r) x = t.2 * x t.1 + dictVal r x := by simp [dictVal]
    rw [h1, ← ih (fun t ht => hr t (by simp [ht])), ← sum_ite_key u hu t.1 (hr t (by simp)) t.2 x, ← List.sum_map_add]
    congr 1
    apply List.map_congr_left
    intro c _
    by_cases e : t.1 = c
    · simp [e]
      ring
    · simp [e]

/-- A row of the merged matrix has the same value. -/
theorem lilRow_val (r : Dict Nat Rat) (x : Nat → Rat) : dictVal (lilRow r) x = dictVal r x := by
  have h := sum_by_key (npUnique (r.map Prod.fst)) (npUnique_nodup _) r (fun t ht => mem_npUnique.2 (List.mem_map_of_mem ht)) x
  rw [← h]
  simp [dictVal, lilRow, Function.comp_def]

theorem lilRow_keys (r : Dict Nat Rat) : (lilRow r).map Prod.fst = npUnique (r.map Prod.fst) := by
  simp [lilRow, Function.comp_def]

theorem lilRow_keys_nodup (r : Dict Nat Rat) : ((lilRow r).map Prod.fst).Nodup := by
  rw [lilRow_keys]
  exact npUnique_nodup _

theorem mem_lilRow_fst {r : Dict Nat Rat} {t : Nat × Rat} (h : t ∈ lilRow r) : ∃ t' ∈ r, t'.1 = t.1 := by
  have : t.1 ∈ (lilRow r).map Prod.fst := List.mem_map_of_mem h
  rw [lilRow_keys, mem_npUnique] at this
  obtain ⟨t', h1, h2⟩ := List.mem_map.1 this
  exact ⟨t', h1, h2⟩

theorem filter_key (r : Dict Nat Rat) (hr : (r.map Prod.fst).Nodup) (t : Nat × Rat) (ht : t ∈ r) : (r.filter fun q => decide (q.1 = t.1)) = [t] := by
  induction r with
  | nil => simp at ht
  | cons q r ih =>
    rw [List.map_cons, List.nodup_cons] at hr
    rcases List.mem_cons.1 ht with rfl | ht
    · have : (r.filter fun q => decide (q.1 = t.1)) = [] := by
        rw [List.filter_eq_nil_iff]
        intro q hq e
        exact hr.1 (List.mem_map.2 ⟨q, hq, by simpa using e⟩)
      simp [this]
    · have : q.1 ≠ t.1 := fun e => hr.1 (List.mem_map.2 ⟨t, ht, e.symm⟩)
      simp [this, ih hr.2 ht]

/-- Without repeated columns the row is only reordered. -/
theorem mem_lilRow (r : Dict Nat Rat) (hr : (r.map Prod.fst).Nodup) (t : Nat × Rat) : t ∈ lilRow r ↔ t ∈ r := by
  constructor
  · intro h
    obtain ⟨t', h1, h2⟩ := mem_lilRow_fst h
    obtain ⟨c, hc, e⟩ := List.mem_map.1 h
    have hc' : c = t.1 := by rw [← e]
    have : ((r.filter fun q => decide (q.1 = c)).map Prod.snd).sum = t'.2 := by
      rw [hc', ← h2, filter_key r hr t' h1]
      simp
    have : t = t' := by
      rw [← e, this]
      exact Prod.ext (hc'.trans h2.symm) rfl
    rw [this]
    exact h1
  · intro h
    refine List.mem_map.2 ⟨t.1, mem_npUnique.2 (List.mem_map_of_mem h), ?_⟩
    rw [filter_key r hr t h]
    simp

/-! ### Environments -/

/-- What the construction of the program guarantees: the variables are different and have different names, the unit is the first, and the generated rows only use columns that exist. -/
structure EnvOk (E : Env K) : Prop where
  nodup : E.monomials.Nodup
  names : ∀ m ∈ E.monomials, ∀ m' ∈ E.monomials, nameOf E m = nameOf E m' → m = m'
  minEq : ∀ r ∈ E.minEq, ∀ t ∈ r, t.1 < E.monomials.length
  minIneq : ∀ r ∈ E.minIneq, ∀ t ∈ r, t.1 < E.monomials.length
  unit : E.monomials.head? = some one

def InRange (E : Env K) (r : Dict Nat Rat) : Prop := ∀ t ∈ r, t.1 < E.monomials.length

theorem getD_inj {E : Env K} (hE : EnvOk E) {i j : Nat} (hi : i < E.monomials.length) (hj : j < E.monomials.length)
    (h : E.monomials.getD i one = E.monomials.getD j one) : i = j := by
  rw [List.getD_eq_getElem _ _ hi, List.getD_eq_getElem _ _ hj] at h
  exact (List.Nodup.getElem_inj_iff hE.nodup).1 h

theorem getD_mem {E : Env K} {i : Nat} (hi : i < E.monomials.length) : E.monomials.getD i one ∈ E.monomials := by
  rw [List.getD_eq_getElem _ _ hi]
  exact List.getElem_mem _

theorem lil_inRange {E : Env K} {r : Dict Nat Rat} (hr : InRange E r) : InRange E (lilRow r) := by
  intro t ht
  obtain ⟨t', h1, h2⟩ := mem_lilRow_fst ht
  rw [← h2]
  exact hr t' h1

theorem nodup_map_keys {α : Type} {l : Dict Nat Rat} (f : Nat → α) (h : (l.map Prod.fst).Nodup)
    (hf : ∀ t ∈ l, ∀ t' ∈ l, f t.1 = f t'.1 → t.1 = t'.1) : (l.map fun t => f t.1).Nodup := by
  have : (l.map fun t => f t.1) = (l.map Prod.fst).map f := by simp [Function.comp_def]
  rw [this]
  refine List.Nodup.map_on ?_ h
  intro x hx y hy e
  obtain ⟨t, ht, rfl⟩ := List.mem_map.1 hx
  obtain ⟨t', ht', rfl⟩ := List.mem_map.1 hy
  exact hf t ht t' ht' e

theorem rowByMon_eq {E : Env K} (hE : EnvOk E) {r : Dict Nat Rat} (hr : InRange E r) :
    rowByMon E r = (lilRow r).map fun t => (E.monomials.getD t.1 one, t.2) := by
  have h := foldl_set_eq (fun t : Nat × Rat => E.monomials.getD t.1 one) (fun t => t.2) (lilRow r) [] (by
    simp only [Dict.keys, List.map_nil, List.nil_append]
    exact nodup_map_keys (fun i => E.monomials.getD i one) (lilRow_keys_nodup r)
      (fun t ht t' ht' e => getD_inj hE (lil_inRange hr t ht) (lil_inRange hr t' ht') e))
  rw [List.nil_append] at h
  exact h

theorem rowByMon_keys_nodup {E : Env K} (hE : EnvOk E) {r : Dict Nat Rat} (hr : InRange E r) : (Dict.keys (rowByMon E r)).Nodup := by
  rw [rowByMon_eq hE hr]
  have : Dict.keys ((lilRow r).map fun t => (E.monomials.getD t.1 one, t.2)) = (lilRow r).map fun t => E.monomials.getD t.1 one := by
    simp [Dict.keys, Function.comp_def]
  rw [this]
  exact nodup_map_keys (fun i => E.monomials.getD i one) (lilRow_keys_nodup r)
    (fun t ht t' ht' e => getD_inj hE (lil_inRange hr t ht) (lil_inRange hr t' ht') e)

theorem rowByMon_keys_mem {E : Env K} (hE : EnvOk E) {r : Dict Nat Rat} (hr : InRange E r) : ∀ m ∈ Dict.keys (rowByMon E r), m ∈ E.monomials := by
  rw [rowByMon_eq hE hr]
  intro x hx
  simp only [Dict.keys, List.map_map, List.mem_map, Function.comp_def] at hx
  obtain ⟨t, ht, rfl⟩ := hx
  exact getD_mem (lil_inRange hr t ht)

theorem name_keys_nodup {E : Env K} (hE : EnvOk E) {r : Dict Nat Rat} (hr : InRange E r) :
    ((lilRow r).map fun t => nameOf E (E.monomials.getD t.1 one)).Nodup :=
  nodup_map_keys (fun i => nameOf E (E.monomials.getD i one)) (lilRow_keys_nodup r)
    (fun t ht t' ht' e => getD_inj hE (lil_inRange hr t ht) (lil_inRange hr t' ht')
      (hE.names _ (getD_mem (lil_inRange hr t ht)) _ (getD_mem (lil_inRange hr t' ht')) e))

theorem rowByName_eq {E : Env K} (hE : EnvOk E) {r : Dict Nat Rat} (hr : InRange E r) :
    rowByName E r = (lilRow r).map fun t => (nameOf E (E.monomials.getD t.1 one), t.2) := by
  have h := foldl_set_eq (fun t : Nat × Rat => nameOf E (E.monomials.getD t.1 one)) (fun t => t.2) (lilRow r) [] (by
    simp only [Dict.keys, List.map_nil, List.nil_append]
    exact name_keys_nodup hE hr)
  rw [List.nil_append] at h
  exact h

theorem rowByName_keys_nodup {E : Env K} (hE : EnvOk E) {r : Dict Nat Rat} (hr : InRange E r) : (Dict.keys (rowByName E r)).Nodup := by
  rw [rowByName_eq hE hr]
  have : Dict.keys ((lilRow r).map fun t => (nameOf E (E.monomials.getD t.1 one), t.2)) = (lilRow r).map fun t => nameOf E (E.monomials.getD t.1 one) := by
    simp [Dict.keys, Function.comp_def]
  rw [this]
  exact name_keys_nodup hE hr

theorem rowByName_keys_mem {E : Env K} (hE : EnvOk E) {r : Dict Nat Rat} (hr : InRange E r) : ∀ x ∈ Dict.keys (rowByName E r), x ∈ monomialNames E := by
  rw [rowByName_eq hE hr]
  intro x hx
  simp only [Dict.keys, List.map_map, List.mem_map, Function.comp_def] at hx
  obtain ⟨t, ht, rfl⟩ := hx
  exact List.mem_map_of_mem (getD_mem (lil_inRange hr t ht))

/-- The named row has the value of the matrix row. -/
theorem rowByName_val {E : Env K} (hE : EnvOk E) {r : Dict Nat Rat} (hr : InRange E r) (z : String → Rat) :
    lin (rowByName E r) z = dictVal r (columns E fun m => z (nameOf E m)) := by
  rw [rowByName_eq hE hr, ← lilRow_val]
  simp [lin, dictVal, columns, Function.comp_def]

theorem rowByMon_val {E : Env K} (hE : EnvOk E) {r : Dict Nat Rat} (hr : InRange E r) (y : Mon → Rat) :
    dictVal (rowByMon E r) y = dictVal r (columns E y) := by
  rw [rowByMon_eq hE hr, ← lilRow_val]
  simp [dictVal, columns, Function.comp_def]

theorem toIdx_lt (E : Env K) {m : Mon} {i : Nat} (h : toIdx E m = some i) : i < E.monomials.length := by
  unfold toIdx at h
  rw [List.findIdx?_eq_some_iff_getElem] at h
  exact h.1

theorem toRow_forall₂ {E : Env K} {d : Dict Mon Rat} {r : Dict Nat Rat} (h : toRow E d = some r) :
    List.Forall₂ (fun (t : Mon × Rat) (q : Nat × Rat) => toIdx E t.1 = some q.1 ∧ q.2 = t.2) d r := by
  unfold toRow at h
  induction d generalizing r with
  | nil =>
    simp only [List.mapM_nil, Option.pure_def, Option.some.injEq] at h
    subst h
    exact .nil
  | cons t d ih =>
    rw [List.mapM_cons] at h
    simp only [Option.bind_eq_bind, Option.bind_eq_some_iff, Option.map_eq_some_iff, Option.pure_def, Option.some.injEq] at h
    obtain ⟨_, ⟨i, hi, rfl⟩, r', hr', rfl⟩ := h
    exact .cons ⟨hi, rfl⟩ (ih hr')

theorem toRow_inRange {E : Env K} {d : Dict Mon Rat} {r : Dict Nat Rat} (h : toRow E d = some r) : InRange E r := by
  have h2 := toRow_forall₂ h
  intro q hq
  induction h2 with
  | nil => simp at hq
  | cons hh _ ih =>
    rename_i t q' d' r' _
    rcases List.mem_cons.1 hq with rfl | hq
    · exact toIdx_lt E hh.1
    · exact ih (by
        unfold toRow at h ⊢
        rw [List.mapM_cons] at h
        simp only [Option.bind_eq_bind, Option.bind_eq_some_iff, Option.map_eq_some_iff, Option.pure_def, Option.some.injEq] at h
        obtain ⟨_, _, r'', hr'', e⟩ := h
        rw [hr'']
        exact congrArg some (List.cons.inj e).2) hq

theorem toRow_keys_nodup {E : Env K} {d : Dict Mon Rat} {r : Dict Nat Rat} (h : toRow E d = some r) (hd : d.keys.Nodup) : (r.map Prod.fst).Nodup := by
  have h2 := toRow_forall₂ h
  clear h
  induction h2 with
  | nil => simp
  | cons hh hr ih =>
    rename_i t q d' r'
    simp only [Dict.keys, List.map_cons, List.nodup_cons] at hd ⊢
    refine ⟨?_, ih hd.2⟩
    intro hm
    obtain ⟨q', hq', e⟩ := List.mem_map.1 hm
    have : ∃ t' ∈ d', toIdx E t'.1 = some q'.1 := by
      clear ih hd hm
      induction hr with
      | nil => simp at hq'
      | cons h3 _ ih3 =>
        rcases List.mem_cons.1 hq' with rfl | hq'
        · exact ⟨_, by simp, h3.1⟩
        · obtain ⟨t', ht', e'⟩ := ih3 hq'
          exact ⟨t', by simp [ht'], e'⟩
    obtain ⟨t', ht', e'⟩ := this
    have e1 := toIdx_some E _ _ hh.1
    have e2 := toIdx_some E _ _ e'
    rw [e, e1] at e2
    exact hd.1 (List.mem_map.2 ⟨t', ht', e2.symm⟩)

theorem toRow_mem {E : Env K} {d : Dict Mon Rat} {r : Dict Nat Rat} (h : toRow E d = some r) {m : Mon} (hm : m ∈ d.keys) : m ∈ E.monomials := by
  obtain ⟨t, ht, rfl⟩ := List.mem_map.1 hm
  obtain ⟨q, hq, e⟩ := mapM_mem _ d r h t ht
  obtain ⟨i, hi, rfl⟩ := Option.map_eq_some_iff.1 e
  have := toIdx_some E _ _ hi
  rw [← this]
  exact getD_mem (toIdx_lt E hi)

/-- A named vector of values: an entry for each entry of the dictionary of moments. -/
theorem byName_forall {E : Env K} (hE : EnvOk E) {d : Dict Mon Rat} {r : Dict Nat Rat} (h : toRow E d = some r) (hd : d.keys.Nodup) (z : String → Rat) (P : Rat → Rat → Prop) :
    (∀ t ∈ rowByName E r, P (z t.1) t.2) ↔ ∀ t ∈ d, P (z (nameOf E t.1)) t.2 := by
  rw [rowByName_eq hE (toRow_inRange h), ← (toRow_spec E d r h (fun m => z (nameOf E m))).2 P]
  simp only [List.mem_map, forall_exists_index, and_imp, forall_apply_eq_imp_iff₂, columns]
  exact ⟨fun hh t ht => hh t ((mem_lilRow r (toRow_keys_nodup h hd) t).2 ht), fun hh t ht => hh t ((mem_lilRow r (toRow_keys_nodup h hd) t).1 ht)⟩

end Verif.Views

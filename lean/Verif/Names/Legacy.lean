import Verif.Names.Products
/-
C40, legacy names `p(outputs|inputs)` of knowable moments.
-/
namespace Verif.Names
open Verif.Scenario Verif.Text Verif.State

theorem filter_joinNat (l : List Nat) : (joinNat ',' l).filter (fun c => decide (c ≠ ',')) = (l.map natStr).flatten := by
  have hn : ∀ n, (natStr n).filter (fun c => decide (c ≠ ',')) = natStr n := by
    intro n
    rw [List.filter_eq_self]
    intro c hc
    have := natStr_digit n c hc
    simp only [ne_eq, decide_eq_true_eq]
    rintro rfl
    revert this
    decide
  induction l with
  | nil => rfl
  | cons a l ih =>
    cases l with
    | nil => rw [joinNat, hn]; simp
    | cons b l =>
      rw [joinNat, List.filter_append, hn, List.filter_cons, ih]
      simp

theorem natStr_length_pos (n : Nat) : 1 ≤ (natStr n).length := by
  obtain ⟨c, s, h, -⟩ := natStr_head n
  rw [h]
  simp

theorem flatten_single {l l' : List Nat} (hl : l.length = l'.length) (h1 : ∀ a ∈ l, (natStr a).length = 1) (h2 : ∀ a ∈ l', (natStr a).length = 1)
    (h : (l.map natStr).flatten = (l'.map natStr).flatten) : l = l' := by
  induction l generalizing l' with
  | nil =>
    cases l' with
    | nil => rfl
    | cons b l' => simp at hl
  | cons a l ih =>
    cases l' with
    | nil => simp at hl
    | cons b l' =>
      simp only [List.map_cons, List.flatten_cons] at h
      obtain ⟨e1, e2⟩ := List.append_inj h (by rw [h1 a (by simp), h2 b (by simp)])
      rw [natStr_inj e1, ih (by simpa using hl) (fun x hx => h1 x (by simp [hx])) (fun x hx => h2 x (by simp [hx])) e2]

theorem flatten_length (l : List Nat) : l.length ≤ (l.map natStr).flatten.length ∧ ((l.map natStr).flatten.length = l.length → ∀ a ∈ l, (natStr a).length = 1) := by
  induction l with
  | nil => simp
  | cons a l ih =>
    have := natStr_length_pos a
    simp only [List.map_cons, List.flatten_cons, List.length_append, List.length_cons]
    refine ⟨by omega, ?_⟩
    intro h x hx
    rcases List.mem_cons.1 hx with rfl | hx
    · omega
    · exact ih.2 (by omega) x hx

theorem divided_inj {l l' : List Nat} (hl : l.length = l'.length) (h : divided l = divided l') : l = l' := by
  have hflat : ∀ l : List Nat, (divided l).filter (fun c => decide (c ≠ ',')) = (l.map natStr).flatten := by
    intro l
    unfold divided
    split
    · rw [List.filter_eq_self]
      intro c hc
      simp only [List.mem_flatten, List.mem_map] at hc
      obtain ⟨s, ⟨n, -, rfl⟩, hc⟩ := hc
      have := natStr_digit n c hc
      simp only [ne_eq, decide_eq_true_eq]
      rintro rfl
      revert this
      decide
    · exact filter_joinNat l
  have hf : (l.map natStr).flatten = (l'.map natStr).flatten := by rw [← hflat, ← hflat, h]
  by_cases h1 : ∀ a ∈ l, (natStr a).length = 1
  · have e : (l.map natStr).flatten.length = l.length := by
      clear hl h hf
      induction l with
      | nil => rfl
      | cons a l ih => simp only [List.map_cons, List.flatten_cons, List.length_append, List.length_cons, h1 a (by simp), ih fun x hx => h1 x (by simp [hx])]; omega
    have h2 : ∀ a ∈ l', (natStr a).length = 1 := (flatten_length l').2 (by rw [← hf, e, hl])
    exact flatten_single hl h1 h2 hf
  · have h2 : ¬ ∀ a ∈ l', (natStr a).length = 1 := by
      intro h2
      have e : (l'.map natStr).flatten.length = l'.length := by
        clear hl h hf
        induction l' with
        | nil => rfl
        | cons a l ih => simp only [List.map_cons, List.flatten_cons, List.length_append, List.length_cons, h2 a (by simp), ih fun x hx => h2 x (by simp [hx])]; omega
      exact h1 ((flatten_length l).2 (by rw [hf, e, hl]))
    unfold divided at h
    rw [if_neg (by simpa using h1), if_neg (by simpa using h2)] at h
    exact (joinNat_span_len (not_digit (c := ',') (by simp)) hl stops_nil stops_nil (by rw [List.append_nil, List.append_nil]; exact h)).1

theorem mem_divided {l : List Nat} {c : Char} (h : c ∈ divided l) : Digit c ∨ c = ',' := by
  unfold divided at h
  split at h
  · simp only [List.mem_flatten, List.mem_map] at h
    obtain ⟨s, ⟨n, -, rfl⟩, hc⟩ := h
    exact Or.inl (natStr_digit n c hc)
  · exact mem_joinNat h

/-- **C40, legacy names of moments (partial).** When every party name is a single character other than `(`, the legacy name determines the parties, settings and outcomes of a knowable moment, in order. Missing: longer names (see `C40_legacy_moment_collision`). -/
theorem C40_legacy_moment_names_partial (names : List Str) (hnd : names.Nodup) (hone : ∀ n ∈ names, ∃ c, n = [c] ∧ c ≠ '(') (u v : List (Nat × Nat × Nat))
    (hu : ∀ r ∈ u, 1 ≤ r.1 ∧ r.1 ≤ names.length) (hv : ∀ r ∈ v, 1 ≤ r.1 ∧ r.1 ≤ names.length) (h : rawName names u = rawName names v) : u = v := by
  unfold rawName at h
  simp only [List.cons_append, List.append_assoc, List.cons.injEq, true_and] at h
  have hin : ∀ r : Nat × Nat × Nat, (1 ≤ r.1 ∧ r.1 ≤ names.length) → names.getD (r.1 - 1) [] ∈ names := by
    intro r hr
    have : r.1 - 1 < names.length := by omega
    rw [List.getD_eq_getElem _ _ this]
    exact List.getElem_mem this
  have hno : ∀ w : List (Nat × Nat × Nat), (∀ r ∈ w, 1 ≤ r.1 ∧ r.1 ≤ names.length) → ∀ x ∈ (w.map fun r => names.getD (r.1 - 1) []).flatten, ¬ x = '(' := by
    intro w hw x hx
    simp only [List.mem_flatten, List.mem_map] at hx
    obtain ⟨s, ⟨r, hr, rfl⟩, hxs⟩ := hx
    obtain ⟨c, e, hc⟩ := hone _ (hin r (hw r hr))
    rw [e] at hxs
    simp only [List.mem_cons, List.not_mem_nil, or_false] at hxs
    rw [hxs]; exact hc
  obtain ⟨e1, e2⟩ := span_inj (P := fun x => ¬ x = '(') (hno u hu) (hno v hv) (stops_cons (by simp)) (stops_cons (by simp)) h
  have e3 := (List.cons.inj e2).2
  have hbar : ¬ (Digit '|' ∨ '|' = ',') := by unfold Digit; decide
  have hpar : ¬ (Digit ')' ∨ ')' = ',') := by unfold Digit; decide
  obtain ⟨e4, e5⟩ := span_inj (P := fun x => Digit x ∨ x = ',') (fun x hx => mem_divided hx) (fun x hx => mem_divided hx) (stops_cons hbar) (stops_cons hbar) e3
  obtain ⟨e6, -⟩ := span_inj (P := fun x => Digit x ∨ x = ',') (fun x hx => mem_divided hx) (fun x hx => mem_divided hx) (stops_cons hpar) (stops_cons hpar) (List.cons.inj e5).2
  have hfst : u.map (·.1) = v.map (·.1) := by
    clear h e2 e3 e4 e5 e6
    induction u generalizing v with
    | nil =>
      cases v with
      | nil => rfl
      | cons b v =>
        obtain ⟨c, e, -⟩ := hone _ (hin b (hv b (by simp)))
        rw [List.map_cons, List.flatten_cons, e] at e1
        simp at e1
    | cons a u ih =>
      obtain ⟨c, e, -⟩ := hone _ (hin a (hu a (by simp)))
      cases v with
      | nil =>
        rw [List.map_cons, List.flatten_cons, e] at e1
        simp at e1
      | cons b v =>
        obtain ⟨c', e', -⟩ := hone _ (hin b (hv b (by simp)))
        rw [List.map_cons, List.flatten_cons, List.map_cons, List.flatten_cons, e, e'] at e1
        simp only [List.cons_append, List.nil_append, List.cons.injEq] at e1
        rw [List.map_cons, List.map_cons, ih v (fun r hr => hu r (by simp [hr])) (fun r hr => hv r (by simp [hr])) e1.2]
        congr 1
        have hab : names.getD (a.1 - 1) [] = names.getD (b.1 - 1) [] := by rw [e, e', e1.1]
        have la := hu a (by simp)
        have lb := hv b (by simp)
        have i1 : a.1 - 1 < names.length := by omega
        have i2 : b.1 - 1 < names.length := by omega
        rw [List.getD_eq_getElem _ _ i1, List.getD_eq_getElem _ _ i2] at hab
        have := (List.Nodup.getElem_inj_iff hnd).1 hab
        omega
  have hlen : u.length = v.length := by simpa using congrArg List.length hfst
  have hout := divided_inj (by simpa using hlen) e4
  have hset := divided_inj (by simpa using hlen) e6
  apply List.ext_getElem hlen
  intro n h1 h2
  have a1 : (u.map (·.1))[n]'(by simpa using h1) = (v.map (·.1))[n]'(by simpa using h2) := by simp only [hfst]
  have a2 : (u.map fun r => r.2.1)[n]'(by simpa using h1) = (v.map fun r => r.2.1)[n]'(by simpa using h2) := by simp only [hset]
  have a3 : (u.map fun r => r.2.2)[n]'(by simpa using h1) = (v.map fun r => r.2.2)[n]'(by simpa using h2) := by simp only [hout]
  rw [List.getElem_map, List.getElem_map] at a1 a2 a3
  exact Prod.ext a1 (Prod.ext a2 a3)

/-- **C40, legacy names collide.** With parties called `A`, `AB`, `BC`, `C` the moment of `A` and `BC` and the moment of `AB` and `C` have the same legacy name `pABC(00|00)`; since `monomial_from_name` is updated with the legacy names, one of them is read as the other. -/
theorem C40_legacy_moment_collision :
    ["A".toList, "AB".toList, "BC".toList, "C".toList].Nodup ∧
    rawName ["A".toList, "AB".toList, "BC".toList, "C".toList] [(1, 0, 0), (3, 0, 0)] = "pABC(00|00)".toList ∧
    rawName ["A".toList, "AB".toList, "BC".toList, "C".toList] [(2, 0, 0), (4, 0, 0)] = "pABC(00|00)".toList := by
  decide +kernel

end Verif.Names

import Mathlib.Data.List.GetD
import Verif.Canon.Props
import Verif.MomentMatrix.Model
namespace Verif.MomentMatrix
open Verif.Canon Verif.Canon.Spec

/-! ### tuples -/

theorem lexLe_total (u v : List Nat) : lexLe u v = true ∨ lexLe v u = true := by
  induction u generalizing v with
  | nil => simp [lexLe]
  | cons a u ih =>
    cases v with
    | nil => simp [lexLe]
    | cons b v =>
      simp only [lexLe, Bool.or_eq_true, decide_eq_true_eq, Bool.and_eq_true, beq_iff_eq]
      rcases Nat.lt_trichotomy a b with h | h | h
      · exact .inl (.inl h)
      · rcases ih v with h1 | h1
        · exact .inl (.inr ⟨h, h1⟩)
        · exact .inr (.inr ⟨h.symm, h1⟩)
      · exact .inr (.inl h)

theorem lexLe_antisymm (u v : List Nat) (h1 : lexLe u v = true) (h2 : lexLe v u = true) : u = v := by
  induction u generalizing v with
  | nil =>
    cases v with
    | nil => rfl
    | cons b v => simp [lexLe] at h2
  | cons a u ih =>
    cases v with
    | nil => simp [lexLe] at h1
    | cons b v =>
      simp only [lexLe, Bool.or_eq_true, decide_eq_true_eq, Bool.and_eq_true, beq_iff_eq] at h1 h2
      have hab : a = b := by omega
      subst hab
      have h3 : lexLe u v = true := by rcases h1 with h | h <;> [omega; exact h.2]
      have h4 : lexLe v u = true := by rcases h2 with h | h <;> [omega; exact h.2]
      rw [ih v h3 h4]

theorem lexMin_comm (u v : List Nat) : lexMin u v = lexMin v u := by
  unfold lexMin
  split
  · split
    · exact lexLe_antisymm u v ‹_› ‹_›
    · rfl
  · split
    · rfl
    · rcases lexLe_total u v with h | h <;> contradiction

theorem lexMin_cases (u v : List Nat) : lexMin u v = u ∨ lexMin u v = v := by
  unfold lexMin; split <;> simp

theorem lexMin_self (u : List Nat) : lexMin u u = u := by unfold lexMin; simp

/-! ### reversal -/

section
variable {N : Nat} {nc om : BMat} {meas : Nat → Nat} (H : OperatorList N nc om meas)

theorem commEq_reverse (hsym : ∀ a b, nc a b = nc b a) {u v : List Nat} (h : CommEq (fun a b => nc a b = false) u v) :
    CommEq (fun a b => nc a b = false) u.reverse v.reverse := by
  induction h with
  | refl w => exact .refl _
  | symm _ ih => exact ih.symm
  | trans _ _ ih1 ih2 => exact ih1.trans ih2
  | swap u a b v hc =>
    simp only [List.reverse_append, List.reverse_cons, List.append_assoc, List.cons_append, List.nil_append]
    exact .swap _ b a _ (by rw [hsym]; exact hc)

abbrev Eqv (N : Nat) (nc om : BMat) := OpEq N (fun a b => nc a b = false) (fun a b => om a b = true)

include H in
theorem opEq_reverse {u v : List Nat} (h : Eqv N nc om u v) : Eqv N nc om u.reverse v.reverse := by
  induction h with
  | refl w => exact .refl _
  | symm _ ih => exact ih.symm
  | trans _ _ ih1 ih2 => exact ih1.trans ih2
  | swap u a b v hc =>
    simp only [List.reverse_append, List.reverse_cons, List.append_assoc, List.cons_append, List.nil_append]
    exact .swap _ b a _ (by rw [H.nc_symm]; exact hc)
  | idem u a v =>
    simp only [List.reverse_append, List.reverse_cons, List.append_assoc, List.cons_append, List.nil_append]
    exact .idem _ a _
  | zero u a b v hv ho =>
    simp only [List.reverse_append, List.reverse_cons, List.append_assoc, List.cons_append, List.nil_append,
      List.reverse_nil]
    refine .zero _ b a _ ?_ ?_
    · intro x hx
      apply hv
      simp only [List.mem_append, List.mem_reverse, List.mem_cons] at hx ⊢
      tauto
    · exact (om_symm_of H (hv a (by simp)) (hv b (by simp))).1 ho

theorem mem_reverse_lt {w : List Nat} (h : ∀ x ∈ w, x < N) : ∀ x ∈ w.reverse, x < N :=
  fun x hx => h x (List.mem_reverse.1 hx)

theorem removeSquares_length_le (w : List Nat) : (removeSquares w).length ≤ w.length := by
  fun_induction removeSquares w <;> simp_all <;> omega

theorem removeSquares_eq_of_length {w : List Nat} (h : w.length ≤ (removeSquares w).length) : removeSquares w = w := by
  fun_induction removeSquares w with
  | case1 => rfl
  | case2 => rfl
  | case3 b t ih =>
    have := removeSquares_length_le (b :: t)
    simp at h this
    omega
  | case4 a b t hne ih =>
    rw [ih (by simpa using h)]

theorem removeSquares_mem {w : List Nat} {x : Nat} (h : x ∈ removeSquares w) : x ∈ w := by
  fun_induction removeSquares w with
  | case1 => exact h
  | case2 => exact h
  | case3 b t ih => exact List.mem_cons_of_mem _ (ih h)
  | case4 a b t hne ih =>
    rcases List.mem_cons.1 h with rfl | h
    · simp
    · exact List.mem_cons_of_mem _ (ih h)

theorem toCanonical_length_le {w : List Nat} (hw : w ≠ []) : (toCanonical nc om false false w).length ≤ w.length := by
  rw [toCanonical_eq]
  have hpos : 0 < w.length := List.length_pos_iff.2 hw
  split
  · simp [removeSquares]; omega
  · have := removeSquares_length_le (lexmonToCanonical nc w)
    have := (canon_sound nc w).perm.length_eq
    omega

include H in
theorem toCanonical_lt {w : List Nat} (hw : ∀ x ∈ w, x < N) : ∀ x ∈ toCanonical nc om false false w, x < N := by
  intro x hx
  rw [toCanonical_eq] at hx
  have := removeSquares_mem hx
  split at this
  · simp at this; rw [this]; exact H.pos
  · exact hw x ((canon_sound nc w).perm.mem_iff.2 this)

include H in
/-- a canonical form containing the zero operator is the zero operator -/
theorem toCanonical_zero {w : List Nat} (hw : ∀ x ∈ w, x < N) (h0 : 0 ∈ toCanonical nc om false false w) :
    toCanonical nc om false false w = [0] := by
  by_cases hl : w.length ≤ 1
  · have e : toCanonical nc om false false w = w := by unfold toCanonical; rw [if_pos hl]
    rw [e] at h0 ⊢
    match w, hl with
    | [], _ => simp at h0
    | [a], _ => simp at h0; rw [h0]
  · rw [toCanonical_eq] at h0 ⊢
    split
    · rfl
    · rename_i hp
      rw [if_neg hp] at h0
      have hm := removeSquares_mem h0
      have hc := (canon_sound nc w).perm
      exfalso; apply hp
      apply pair_of_zero H (fun x hx => hw x (hc.mem_iff.2 hx)) hm
      rw [← hc.length_eq]; omega

include H in
theorem toCanonical_iff {u v : List Nat} (hu : ∀ x ∈ u, x < N) (hv : ∀ x ∈ v, x < N) :
    toCanonical nc om false false u = toCanonical nc om false false v ↔ Eqv N nc om u v :=
  C03_canonical_decides_operator_equality H u v hu hv

include H in
/-- Reversing a non-vanishing canonical form and reordering it gives the canonical form of the reversed word. -/
theorem reversed_canonical {u : List Nat} (hu : ∀ x ∈ u, x < N) (h0 : 0 ∉ toCanonical nc om false false u) :
    toCanonical nc om false true (toCanonical nc om false false u).reverse = toCanonical nc om false false u.reverse := by
  set w := toCanonical nc om false false u with hwdef
  have hw : ∀ x ∈ w, x < N := toCanonical_lt H hu
  have hww : toCanonical nc om false false w = w := C04_canonical_idempotent nc om H.nc_symm H.nc_diag false u
  have huw : Eqv N nc om u w := by
    rw [← toCanonical_iff H hu hw, hww]
  have e1 : toCanonical nc om false false u.reverse = toCanonical nc om false false w.reverse := by
    rw [toCanonical_iff H (mem_reverse_lt hu) (mem_reverse_lt hw)]
    exact opEq_reverse H huw
  rw [e1]
  -- now `w` is reduced
  by_cases hl : w.reverse.length ≤ 1
  · unfold toCanonical; rw [if_pos hl, if_pos hl]
  have hne : w.reverse ≠ [] := by intro e; rw [e] at hl; simp at hl
  have hfull := toCanonical_eq (nc := nc) (om := om) w.reverse
  have hx : ∀ y ∈ toCanonical nc om false false w.reverse, y < N := toCanonical_lt H (mem_reverse_lt hw)
  have hrel : Eqv N nc om (toCanonical nc om false false w.reverse).reverse w := by
    have : Eqv N nc om (toCanonical nc om false false w.reverse) w.reverse := by
      rw [← toCanonical_iff H hx (mem_reverse_lt hw)]
      exact C04_canonical_idempotent nc om H.nc_symm H.nc_diag false _
    have := opEq_reverse H this
    rwa [List.reverse_reverse] at this
  have hcan := (toCanonical_iff H (mem_reverse_lt hx) hw).2 hrel
  rw [hww] at hcan
  have hnp : ¬ hasOrthoPair om (lexmonToCanonical nc w.reverse) = true := by
    intro hp
    rw [if_pos hp] at hfull
    rw [hfull] at hcan
    simp [removeSquares, toCanonical] at hcan
    apply h0
    rw [← hcan]; simp
  rw [if_neg hnp] at hfull
  have hne' : (toCanonical nc om false false w.reverse).reverse ≠ [] := by
    intro e
    rw [e] at hcan
    simp [toCanonical] at hcan
    exact hne (List.reverse_eq_nil_iff.2 hcan)
  have hlen := toCanonical_length_le (nc := nc) (om := om) hne'
  rw [hcan] at hlen
  have hperm := (canon_sound nc w.reverse).perm.length_eq
  have hrs : removeSquares (lexmonToCanonical nc w.reverse) = lexmonToCanonical nc w.reverse := by
    apply removeSquares_eq_of_length
    rw [← hfull, ← hperm]
    simpa using hlen
  rw [hfull, hrs]
  unfold toCanonical
  rw [if_neg hl]
  simp

include H in
theorem monHash_spec {commuting : Bool} (hcomm : commuting = true → ∀ a b, nc a b = false) {m1 m2 : List Nat}
    (h1 : ∀ x ∈ m1, x < N) (h2 : ∀ x ∈ m2, x < N) :
    (monHash nc om commuting m1 m2 = none ∧ toCanonical nc om false false (m1.reverse ++ m2) = [0]) ∨
    (0 ∉ toCanonical nc om false false (m1.reverse ++ m2) ∧
      monHash nc om commuting m1 m2 = some (lexMin (toCanonical nc om false false (m1.reverse ++ m2))
        (toCanonical nc om false false (m1.reverse ++ m2).reverse))) := by
  have hu : ∀ x ∈ m1.reverse ++ m2, x < N := by
    intro x hx
    rcases List.mem_append.1 hx with hx | hx
    · exact h1 x (List.mem_reverse.1 hx)
    · exact h2 x hx
  have hc : ∀ (b : Bool) (w : List Nat), toCanonical nc om commuting b w = toCanonical nc om false b w := by
    intro b w
    cases hcm : commuting with
    | false => rfl
    | true => exact C05_commuting_shortcut_agrees nc om b w fun a _ c _ => hcomm hcm a c
  unfold monHash dotMon
  simp only [hc]
  split
  · rename_i h0
    left
    exact ⟨rfl, toCanonical_zero H hu (List.contains_iff_mem.1 h0)⟩
  · rename_i h0
    rw [List.contains_iff_mem] at h0
    right
    refine ⟨h0, ?_⟩
    split
    · rw [reversed_canonical H hu h0]
    · rename_i hb
      congr 1
      -- either one letter at most, or everything commutes
      have key : toCanonical nc om false false (m1.reverse ++ m2).reverse = toCanonical nc om false false (m1.reverse ++ m2) := by
        cases hcm : commuting with
        | true =>
          rw [toCanonical_iff H (mem_reverse_lt hu) hu]
          exact OpEq.of_commEq (CommEq.of_perm (List.reverse_perm _) fun a _ b _ => hcomm hcm a b)
        | false =>
          rw [hcm] at hb
          have hl : (toCanonical nc om false false (m1.reverse ++ m2)).length ≤ 1 := by simpa using hb
          rw [← reversed_canonical H hu h0]
          have hr : (toCanonical nc om false false (m1.reverse ++ m2)).reverse =
              toCanonical nc om false false (m1.reverse ++ m2) := by
            match toCanonical nc om false false (m1.reverse ++ m2), hl with
            | [], _ => rfl
            | [a], _ => rfl
          rw [hr]
          have hshort : ∀ w : List Nat, w.length ≤ 1 → toCanonical nc om false true w = w := by
            intro w hw; unfold toCanonical; rw [if_pos hw]
          exact hshort _ hl
      rw [key, lexMin_self]

end

/-! ### the table -/

/-- Invariant of the loop after the pairs in `done`. -/
structure Inv (hash : Nat → Nat → Option (List Nat)) (done : List (Nat × Nat)) (s : St) : Prop where
  pos : 1 ≤ s.varidx
  count : s.varidx = s.tbl.length + 1
  vals : ∀ h v, s.tbl.lookup h = some v → 1 ≤ v ∧ v < s.varidx
  inj : ∀ h h' v, s.tbl.lookup h = some v → s.tbl.lookup h' = some v → h = h'
  mat : ∀ a b, s.mat a b = s.mat b a
  ent : ∀ p ∈ done, match hash p.1 p.2 with
    | none => s.mat p.1 p.2 = 0
    | some h => s.tbl.lookup h = some (s.mat p.1 p.2)
  other : ∀ a b, (a, b) ∉ done → (b, a) ∉ done → s.mat a b = 0
  surj : ∀ v, 1 ≤ v → v < s.varidx → ∃ p ∈ done, s.mat p.1 p.2 = v

theorem lookup_append_of_some {α β} [BEq α] {l l' : List (α × β)} {k : α} {v : β} (h : l.lookup k = some v) :
    (l ++ l').lookup k = some v := by
  induction l with
  | nil => simp at h
  | cons a l ih =>
    obtain ⟨a1, a2⟩ := a
    simp only [List.cons_append, List.lookup_cons] at h ⊢
    cases e : k == a1 <;> simp only [e] at h ⊢
    · exact ih h
    · exact h

theorem lookup_append_singleton {α β} [BEq α] [LawfulBEq α] {l : List (α × β)} {k k' : α} {v w : β}
    (hn : l.lookup k' = none) (h : (l ++ [(k', w)]).lookup k = some v) : (k = k' ∧ v = w) ∨ (k ≠ k' ∧ l.lookup k = some v) := by
  induction l with
  | nil =>
    simp only [List.nil_append, List.lookup_cons] at h
    by_cases e : k = k'
    · subst e; simp at h; exact .inl ⟨rfl, h.symm⟩
    · have : (k == k') = false := by simp [e]
      simp [this] at h
  | cons a l ih =>
    obtain ⟨a1, a2⟩ := a
    simp only [List.cons_append, List.lookup_cons] at h hn ⊢
    by_cases e : k = a1
    · subst e
      simp only [BEq.rfl] at h ⊢
      right
      refine ⟨?_, h⟩
      rintro rfl
      simp at hn
    · have e1 : (k == a1) = false := by simp [e]
      simp only [e1] at h ⊢
      apply ih _ h
      by_cases e2 : k' = a1
      · subst e2; simp at hn
      · have e3 : (k' == a1) = false := by simp [e2]
        simpa [e3] using hn

theorem lookup_append_self {α β} [BEq α] [LawfulBEq α] {l : List (α × β)} {k : α} {w : β} (hn : l.lookup k = none) :
    (l ++ [(k, w)]).lookup k = some w := by
  induction l with
  | nil => simp
  | cons a l ih =>
    obtain ⟨a1, a2⟩ := a
    simp only [List.cons_append, List.lookup_cons] at hn ⊢
    split at hn
    · simp at hn
    · exact ih hn

theorem inv_step {nc om : BMat} {commuting : Bool} {cols : List (List Nat)} {done : List (Nat × Nat)} {s : St}
    (hs : Inv (fun i j => monHash nc om commuting (cols.getD i []) (cols.getD j [])) done s) {p : Nat × Nat}
    (hp : p ∉ done) (hp' : p.swap ∉ done) :
    Inv (fun i j => monHash nc om commuting (cols.getD i []) (cols.getD j [])) (done ++ [p]) (step nc om commuting cols s p) := by
  obtain ⟨i, j⟩ := p
  have hp2 : (j, i) ∉ done := hp'
  have hset : ∀ v a b, setSym s.mat i j v a b = setSym s.mat i j v b a := by
    intro v a b
    unfold setSym
    by_cases h : (a = i ∧ b = j) ∨ (a = j ∧ b = i)
    · rw [if_pos h, if_pos (by tauto)]
    · rw [if_neg h, if_neg (by tauto), hs.mat]
  have hself : ∀ v, setSym s.mat i j v i j = v := by intro v; simp [setSym]
  have hold : ∀ v, ∀ q ∈ done, setSym s.mat i j v q.1 q.2 = s.mat q.1 q.2 := by
    intro v q hq
    unfold setSym
    rw [if_neg]
    rintro (⟨e1, e2⟩ | ⟨e1, e2⟩)
    · exact hp (by rw [← e1, ← e2]; exact hq)
    · exact hp2 (by rw [← e1, ← e2]; exact hq)
  have hother : ∀ v, ∀ a b, (a, b) ∉ done ++ [(i, j)] → (b, a) ∉ done ++ [(i, j)] → setSym s.mat i j v a b = 0 := by
    intro v a b h1 h2
    simp only [List.mem_append, List.mem_singleton, Prod.mk.injEq, not_or] at h1 h2
    unfold setSym
    rw [if_neg (by rintro (h | h) <;> tauto)]
    exact hs.other a b h1.1 h2.1
  unfold step
  simp only
  split
  · rename_i hh
    refine { hs with ent := ?_, other := ?_, surj := ?_ }
    · intro q hq
      rcases List.mem_append.1 hq with hq | hq
      · exact hs.ent q hq
      · simp only [List.mem_singleton] at hq
        subst hq
        simp only [hh]
        exact hs.other i j hp hp2
    · intro a b h1 h2
      simp only [List.mem_append, not_or] at h1 h2
      exact hs.other a b h1.1 h2.1
    · intro v h1 h2
      obtain ⟨q, hq, e⟩ := hs.surj v h1 h2
      exact ⟨q, by simp [hq], e⟩
  · rename_i h hh
    split
    · rename_i v hv
      refine { pos := hs.pos, count := hs.count, vals := hs.vals, inj := hs.inj, mat := hset v, ent := ?_, other := hother v
               surj := fun w h1 h2 => by
                obtain ⟨q, hq, e⟩ := hs.surj w h1 h2
                exact ⟨q, by simp [hq], by simp only [hold v q hq, e]⟩ }
      intro q hq
      rcases List.mem_append.1 hq with hq | hq
      · simp only [hold v q hq]
        exact hs.ent q hq
      · simp only [List.mem_singleton] at hq
        subst hq
        simp only [hh, hself]
        exact hv
    · rename_i hn
      refine { pos := by simp, count := by simp [hs.count], vals := ?_, inj := ?_, mat := hset _, ent := ?_, other := hother _
               surj := fun w h1 h2 => by
                simp only at h2
                rcases Nat.lt_or_ge w s.varidx with h3 | h3
                · obtain ⟨q, hq, e⟩ := hs.surj w h1 h3
                  exact ⟨q, by simp [hq], by simp only [hold _ q hq, e]⟩
                · exact ⟨(i, j), by simp, by simp only [hself]; omega⟩ }
      · intro k v hk
        rcases lookup_append_singleton hn hk with ⟨_, rfl⟩ | ⟨_, hk⟩
        · have := hs.pos; simp; omega
        · have := hs.vals k v hk
          simp; omega
      · intro k k' v hk hk'
        rcases lookup_append_singleton hn hk with ⟨e1, e⟩ | ⟨_, hk⟩ <;>
          rcases lookup_append_singleton hn hk' with ⟨e1', e'⟩ | ⟨_, hk'⟩
        · rw [e1, e1']
        · have := hs.vals _ _ hk'; omega
        · have := hs.vals _ _ hk; omega
        · exact hs.inj _ _ _ hk hk'
      · intro q hq
        rcases List.mem_append.1 hq with hq | hq
        · simp only [hold _ q hq]
          have := hs.ent q hq
          split
          · rename_i e; simp only [e] at this; exact this
          · rename_i e; simp only [e] at this; exact lookup_append_of_some this
        · simp only [List.mem_singleton] at hq
          subst hq
          simp only [hh, hself]
          exact lookup_append_self hn

theorem inv_foldl {nc om : BMat} {commuting : Bool} {cols : List (List Nat)} (todo done : List (Nat × Nat)) {s : St}
    (hs : Inv (fun i j => monHash nc om commuting (cols.getD i []) (cols.getD j [])) done s)
    (hnd : (done ++ todo).Nodup) (hle : ∀ p ∈ done ++ todo, p.1 ≤ p.2) :
    Inv (fun i j => monHash nc om commuting (cols.getD i []) (cols.getD j [])) (done ++ todo)
      (todo.foldl (step nc om commuting cols) s) := by
  induction todo generalizing done s with
  | nil => simpa using hs
  | cons p t ih =>
    have hp : p ∉ done := by
      intro h
      exact (List.nodup_append.1 hnd).2.2 p h p (by simp) rfl
    have hp' : p.swap ∉ done := by
      intro h
      have h1 := hle p.swap (by simp [h])
      have h2 := hle p (by simp)
      simp at h1
      have : p.swap = p := by
        obtain ⟨a, b⟩ := p
        simp at h1 h2 ⊢
        omega
      rw [this] at h
      exact hp h
    have := ih (done ++ [p]) (inv_step hs hp hp') (by simpa using hnd) (by simpa using hle)
    simpa using this

theorem mem_pairs {n i j : Nat} : (i, j) ∈ pairs n ↔ i ≤ j ∧ j < n := by
  simp only [pairs, List.mem_flatMap, List.mem_range, List.mem_map, List.mem_filter, decide_eq_true_eq, Prod.mk.injEq]
  constructor
  · rintro ⟨a, ha, b, ⟨hb, hab⟩, rfl, rfl⟩; exact ⟨hab, hb⟩
  · rintro ⟨h1, h2⟩; exact ⟨i, by omega, j, ⟨h2, h1⟩, rfl, rfl⟩

theorem nodup_pairs (n : Nat) : (pairs n).Nodup := by
  unfold pairs
  rw [List.nodup_flatMap]
  refine ⟨?_, ?_⟩
  · intro i _
    refine List.Nodup.map ?_ (List.nodup_range.filter _)
    intro a b h
    simpa using h
  · refine List.Pairwise.imp ?_ List.nodup_range
    intro a b hab
    simp only [Function.onFun, List.disjoint_left, List.mem_map]
    rintro x ⟨_, _, rfl⟩ ⟨_, _, h⟩
    simp at h
    omega

theorem inv_momentMatrix (nc om : BMat) (commuting : Bool) (cols : List (List Nat)) :
    Inv (fun i j => monHash nc om commuting (cols.getD i []) (cols.getD j [])) (pairs cols.length)
      (momentMatrix nc om commuting cols) := by
  have h0 : Inv (fun i j => monHash nc om commuting (cols.getD i []) (cols.getD j [])) [] St.init :=
    { pos := by simp [St.init], count := by simp [St.init], vals := by simp [St.init], inj := by simp [St.init]
      mat := by simp [St.init], ent := by simp, other := by simp [St.init]
      surj := by simp [St.init]; omega }
  have := inv_foldl (pairs cols.length) [] h0 (by simpa using nodup_pairs _)
    (by
      rintro ⟨i, j⟩ hp
      simp only [List.nil_append] at hp
      exact (mem_pairs.1 hp).1)
  simpa [momentMatrix] using this

end Verif.MomentMatrix

import Verif.SdpRepr.Model
import Verif.SdpRepr.Spec
import Verif.SymMM.ColumnsProps
/-
Invariant of the two dictionaries.
-/
namespace Verif.SdpRepr
open Verif.Canon Verif.Canon.Spec Verif.Common Verif.MomentMatrix Verif.SymMM Verif.Orbits

theorem lexLe_iff (u v : List Nat) : lexLe u v = true ↔ LexLE u v := by
  induction u generalizing v with
  | nil => simp [lexLe, LexLE]
  | cons a u ih =>
    cases v with
    | nil => simp [lexLe, LexLE]
    | cons b v => simp [lexLe, LexLE, ih]

theorem minTuple_spec (l : List (List Nat)) (h : l ≠ []) :
    minTuple l ∈ l ∧ ∀ x ∈ l, lexLe (minTuple l) x = true := by
  fun_induction minTuple l with
  | case1 => exact absurd rfl h
  | case2 a =>
    refine ⟨by simp, ?_⟩
    intro x hx
    simp only [List.mem_singleton] at hx
    subst hx
    exact (lexLe_total x x).elim id id
  | case3 a b t ih =>
    obtain ⟨h1, h2⟩ := ih (by simp)
    unfold lexMin
    split
    · rename_i hle
      refine ⟨by simp, ?_⟩
      intro x hx
      rw [List.mem_cons] at hx
      rcases hx with rfl | hx
      · exact (lexLe_total _ _).elim id id
      · exact lexLe_trans _ _ _ hle (h2 x hx)
    · rename_i hle
      refine ⟨List.mem_cons_of_mem _ h1, ?_⟩
      intro x hx
      rw [List.mem_cons] at hx
      rcases hx with rfl | hx
      · exact (lexLe_total _ _).resolve_left hle
      · exact h2 x hx

variable {N : Nat} {nc om : BMat} {meas : Nat → Nat} {commuting : Bool} {rows : List (List Nat)}

theorem noAdj_hasOrtho {w : List Nat} (h : ∀ u a b v, w = u ++ a :: b :: v → a ≠ b ∧ om a b = false ∧ om b a = false) :
    hasOrthoPair om w = false := by
  fun_induction hasOrthoPair om w with
  | case1 => rfl
  | case2 => rfl
  | case3 a b t ih =>
    rw [(h [] a b t rfl).2.2, ih]
    · rfl
    · intro u a' b' v e
      exact h (a :: u) a' b' v (by rw [e]; rfl)

theorem noAdj_removeSquares {w : List Nat} (h : ∀ u a b v, w = u ++ a :: b :: v → a ≠ b ∧ om a b = false ∧ om b a = false) :
    removeSquares w = w := by
  fun_induction removeSquares w with
  | case1 => rfl
  | case2 => rfl
  | case3 b t ih => exact absurd rfl (h [] b b t rfl).1
  | case4 a b t hne ih =>
    rw [ih]
    intro u a' b' v e
    exact h (a :: u) a' b' v (by rw [e]; rfl)

theorem canonTrue (w : List Nat) : toCanonical nc om false true w = lexmonToCanonical nc w := by
  unfold toCanonical
  match w with
  | [] => simp [lexmonToCanonical]
  | [a] => simp [lexmonToCanonical]
  | a :: b :: t => simp

theorem canonFalse {w : List Nat} (h : Reduced nc om w) : toCanonical nc om false false w = lexmonToCanonical nc w := by
  have h' : ∀ u a b v, lexmonToCanonical nc w = u ++ a :: b :: v → a ≠ b ∧ om a b = false ∧ om b a = false := by
    intro u a b v e
    apply h u a b v
    rw [← e]
    exact canon_sound nc w
  rw [toCanonical_eq, noAdj_hasOrtho h']
  simp only [Bool.false_eq_true, if_false]
  exact noAdj_removeSquares h'

theorem canonAny {w : List Nat} (h : Reduced nc om w) (hcomm : commuting = true → ∀ a b, nc a b = false) (flag : Bool) :
    toCanonical nc om commuting flag w = lexmonToCanonical nc w := by
  have e : toCanonical nc om commuting flag w = toCanonical nc om false flag w := by
    cases commuting with
    | false => rfl
    | true => exact C05_commuting_shortcut_agrees nc om flag w (fun a _ b _ => hcomm rfl a b)
  rw [e]
  cases flag with
  | true => exact canonTrue w
  | false => exact canonFalse h

theorem canonIdem (H : OperatorList N nc om meas) (hcomm : commuting = true → ∀ a b, nc a b = false) (flag : Bool)
    (w : List Nat) (h : Reduced nc om (toCanonical nc om commuting flag w)) :
    lexmonToCanonical nc (toCanonical nc om commuting flag w) = toCanonical nc om commuting flag w := by
  have e : ∀ w, toCanonical nc om commuting flag w = toCanonical nc om false flag w := by
    intro w
    cases commuting with
    | false => rfl
    | true => exact C05_commuting_shortcut_agrees nc om flag w (fun a _ b _ => hcomm rfl a b)
  rw [← canonAny h hcomm flag, e, e]
  exact C04_canonical_idempotent nc om H.nc_symm H.nc_diag flag w

/-- Entries of the first dictionary are right at reduced keys. -/
def CanonOk (nc om : BMat) (c : Memo) : Prop := ∀ k v, c.lookup k = some v → Reduced nc om k → v = lexmonToCanonical nc k

theorem allZero_reduced {w : List Nat} (h0 : allZero w = true) (h : Reduced nc om w) : w = [] ∨ w = [0] := by
  match w with
  | [] => exact .inl rfl
  | [a] => simp [allZero] at h0; simp [h0]
  | a :: b :: t =>
    simp [allZero] at h0
    exact absurd (by rw [h0.1, h0.2.1]) (h [] a b t (.refl _)).1

theorem lookup_cons_some {l : Memo} {k k' v w : List Nat} (h : ((k', w) :: l).lookup k = some v) :
    (k = k' ∧ v = w) ∨ l.lookup k = some v := by
  rw [List.lookup_cons] at h
  cases e : k == k' with
  | true => rw [e] at h; simp only [Option.some.injEq] at h; exact .inl ⟨by simpa using e, h.symm⟩
  | false => rw [e] at h; exact .inr h

theorem canonMemo_ok (H : OperatorList N nc om meas) (hcomm : commuting = true → ∀ a b, nc a b = false) {c : Memo}
    (hc : CanonOk nc om c) (flag : Bool) (w : List Nat) :
    CanonOk nc om (canonMemo nc om commuting c flag w).1 ∧
    (Reduced nc om w → (canonMemo nc om commuting c flag w).2 = lexmonToCanonical nc w) := by
  unfold canonMemo
  split
  · rename_i r hr
    exact ⟨hc, fun h => hc w r hr h⟩
  · split
    · rename_i h0
      have hself : Reduced nc om w → w = lexmonToCanonical nc w := by
        intro h
        rcases allZero_reduced h0 h with rfl | rfl <;> simp [lexmonToCanonical]
      refine ⟨?_, hself⟩
      intro k v hkv hk
      rcases lookup_cons_some hkv with ⟨rfl, rfl⟩ | h
      · exact hself hk
      · exact hc k v h hk
    · refine ⟨?_, fun h => canonAny h hcomm flag⟩
      intro k v hkv hk
      rcases lookup_cons_some hkv with ⟨rfl, rfl⟩ | h
      · exact (canonIdem H hcomm flag w hk).symm
      · rcases lookup_cons_some h with ⟨rfl, rfl⟩ | h
        · exact canonAny hk hcomm flag
        · exact hc k v h hk

theorem canonAll_ok (H : OperatorList N nc om meas) (hcomm : commuting = true → ∀ a b, nc a b = false) (l : List (List Nat))
    {c : Memo} (hc : CanonOk nc om c) (hl : ∀ w ∈ l, Reduced nc om w) :
    CanonOk nc om (canonAll nc om commuting c l).1 ∧
    (canonAll nc om commuting c l).2 = l.map (lexmonToCanonical nc) := by
  induction l generalizing c with
  | nil => exact ⟨hc, rfl⟩
  | cons w t ih =>
    obtain ⟨h1, h2⟩ := canonMemo_ok H hcomm hc true w
    obtain ⟨h3, h4⟩ := ih h1 (fun w hw => hl w (by simp [hw]))
    simp only [canonAll]
    exact ⟨h3, by rw [h4, h2 (hl w (by simp))]; rfl⟩

/-! ### symmetries -/

theorem mapW_id {w : List Nat} (hw : ∀ x ∈ w, x < N) : mapW (List.range N) w = w := by
  unfold mapW
  conv_rhs => rw [← List.map_id w]
  apply List.map_congr_left
  intro x hx
  simp [List.getD_eq_getElem?_getD, List.getElem?_range (hw x hx)]

theorem sameOrbit_refl (h : SymData N nc om rows) {w : List Nat} (hw : ∀ x ∈ w, x < N) : SameOrbit nc rows w w :=
  ⟨_, h.group.id_mem, by
    have := mapW_id hw
    unfold mapW at this
    rw [this]; exact .refl _⟩

theorem sameOrbit_lt (h : SymData N nc om rows) {u v : List Nat} (hu : ∀ x ∈ u, x < N) (huv : SameOrbit nc rows u v) :
    ∀ x ∈ v, x < N := by
  obtain ⟨r, hr, e⟩ := huv
  intro x hx
  exact h.mapW_lt hr hu x (e.perm.mem_iff.2 hx)

theorem sameOrbit_trans (h : SymData N nc om rows) {u v w : List Nat} (hu : ∀ x ∈ u, x < N) (h1 : SameOrbit nc rows u v)
    (h2 : SameOrbit nc rows v w) : SameOrbit nc rows u w := by
  obtain ⟨r, hr, e1⟩ := h1
  obtain ⟨t, ht, e2⟩ := h2
  refine ⟨_, h.group.comp t ht r hr, ?_⟩
  have e3 := h.commEq ht e1
  have := mapW_comp h ht hr hu
  unfold mapW at this e3
  rw [← this]
  exact e3.trans e2

theorem sameOrbit_symm (h : SymData N nc om rows) {u v : List Nat} (hu : ∀ x ∈ u, x < N) (h1 : SameOrbit nc rows u v) :
    SameOrbit nc rows v u := by
  obtain ⟨r, hr, e1⟩ := h1
  obtain ⟨t, ht, e⟩ := h.group.inv r hr
  refine ⟨t, ht, ?_⟩
  have e3 := h.commEq ht e1
  have h4 := mapW_comp h ht hr hu
  rw [e, mapW_id hu] at h4
  unfold mapW at h4 e3
  rw [h4] at e3
  exact e3.symm

theorem sameOrbit_of_commEq (h : SymData N nc om rows) {u v : List Nat} (hu : ∀ x ∈ u, x < N)
    (e : CommEq (fun a b => nc a b = false) u v) : SameOrbit nc rows u v :=
  ⟨_, h.group.id_mem, by
    have := mapW_id hu
    unfold mapW at this
    rw [this]; exact e⟩

theorem isLeast_congr (h : SymData N nc om rows) {u v w : List Nat} (hu : ∀ x ∈ u, x < N) (huv : SameOrbit nc rows u v)
    (hw : IsLeast nc rows u w) : IsLeast nc rows v w := by
  have hvu := sameOrbit_symm h hu huv
  have hv := sameOrbit_lt h hu huv
  exact ⟨sameOrbit_trans h hv hvu hw.1, fun x hx => hw.2 x (sameOrbit_trans h hu huv hx)⟩

theorem commEq_split_mapW {r a' b' : List Nat} {a b : Nat} :
    mapW r (a' ++ a :: b :: b') = mapW r a' ++ r.getD a a :: r.getD b b :: mapW r b' := by
  simp [mapW]

theorem reduced_commEq {u v : List Nat} (hu : Reduced nc om u) (e : CommEq (fun a b => nc a b = false) u v) :
    Reduced nc om v := fun a b c d h => hu a b c d (e.trans h)

theorem reduced_mapW (h : SymData N nc om rows) {r : List Nat} (hr : r ∈ rows) {w : List Nat} (hw : ∀ x ∈ w, x < N)
    (hred : Reduced nc om w) : Reduced nc om (mapW r w) := by
  intro u a b v e
  obtain ⟨t, ht, et⟩ := h.group.inv r hr
  have e2 := h.commEq ht e
  rw [mapW_comp h ht hr hw, et, mapW_id hw, commEq_split_mapW] at e2
  obtain ⟨h1, h2, h3⟩ := hred _ _ _ _ e2
  rw [h.ortho t ht] at h2 h3
  refine ⟨?_, h2, h3⟩
  rintro rfl
  exact h1 rfl

theorem mem_variants {w v : List Nat} : v ∈ variants rows w ↔ ∃ r ∈ rows, v = mapW r w := by
  unfold variants
  rw [mem_sortBy, mem_dedupB, List.mem_map]
  unfold mapW
  constructor
  · rintro ⟨r, hr, rfl⟩; exact ⟨r, hr, rfl⟩
  · rintro ⟨r, hr, rfl⟩; exact ⟨r, hr, rfl⟩

/-- Entries of the second dictionary. -/
def SymOk (N : Nat) (nc : BMat) (rows : List (List Nat)) (s : Memo) : Prop :=
  ∀ k v, s.lookup k = some v → (∀ x ∈ k, x < N) ∧ IsLeast nc rows k v

theorem lookup_append_map {l : List (List Nat)} {s : Memo} {rep k v : List Nat}
    (h : ((l.map fun k => (k, rep)) ++ s).lookup k = some v) : (k ∈ l ∧ v = rep) ∨ s.lookup k = some v := by
  induction l with
  | nil => exact .inr h
  | cons a l ih =>
    simp only [List.map_cons, List.cons_append] at h
    rcases lookup_cons_some h with ⟨rfl, rfl⟩ | h
    · exact .inl ⟨by simp, rfl⟩
    · rcases ih h with ⟨h1, h2⟩ | h'
      · exact .inl ⟨by simp [h1], h2⟩
      · exact .inr h'

theorem canon_least (H : OperatorList N nc om meas) {w v : List Nat} (e : CommEq (fun a b => nc a b = false) w v) :
    LexLE (lexmonToCanonical nc w) v := by
  have := (C04_canonical_is_lex_least nc om H.nc_symm H.nc_diag w).2 v e
  rwa [canonTrue] at this

theorem reprMemo_ok (H : OperatorList N nc om meas) (h : SymData N nc om rows)
    (hcomm : commuting = true → ∀ a b, nc a b = false) {m : Mem} (hc : CanonOk nc om m.canon) (hs : SymOk N nc rows m.sym)
    (flag : Bool) {w : List Nat} (hw : ∀ x ∈ w, x < N) (hred : Reduced nc om w) :
    CanonOk nc om (reprMemo nc om commuting rows m flag w).1.canon ∧
    SymOk N nc rows (reprMemo nc om commuting rows m flag w).1.sym ∧
    IsLeast nc rows w (reprMemo nc om commuting rows m flag w).2 := by
  unfold reprMemo
  split
  · rename_i h0
    have hself : IsLeast nc rows w w := by
      refine ⟨sameOrbit_refl h hw, ?_⟩
      rintro u ⟨r, hr, e⟩
      rcases allZero_reduced h0 hred with rfl | rfl
      · simp [LexLE]
      · have h1 := h.zero r hr
        simp only [List.map_cons, List.map_nil, h1] at e
        have e2 : u = [0] := List.perm_singleton.1 e.perm.symm
        rw [e2]
        simp [LexLE]
    refine ⟨hc, ?_, hself⟩
    intro k v hkv
    rcases lookup_cons_some hkv with ⟨rfl, rfl⟩ | h'
    · exact ⟨hw, hself⟩
    · exact hs k v h'
  · split
    · rename_i r hr
      exact ⟨hc, hs, (hs w r hr).2⟩
    · obtain ⟨h1, h2⟩ := canonMemo_ok H hcomm hc flag w
      have h2 := h2 hred
      have hcw : CommEq (fun a b => nc a b = false) w (lexmonToCanonical nc w) := canon_sound nc w
      simp only
      split
      · rename_i r hr
        rw [h2] at hr
        have hr' := hs _ _ hr
        have hl : IsLeast nc rows w r := isLeast_congr h hr'.1 (sameOrbit_of_commEq h hr'.1 hcw.symm) hr'.2
        refine ⟨h1, ?_, hl⟩
        intro k v hkv
        rcases lookup_cons_some hkv with ⟨rfl, rfl⟩ | h'
        · exact ⟨hw, hl⟩
        · exact hs k v h'
      · have hvar : ∀ v ∈ variants rows w, Reduced nc om v := by
          intro v hv
          obtain ⟨r, hr, rfl⟩ := mem_variants.1 hv
          exact reduced_mapW h hr hw hred
        obtain ⟨h3, h4⟩ := canonAll_ok H hcomm (variants rows w) h1 hvar
        have hne : (canonAll nc om commuting (canonMemo nc om commuting m.canon flag w).1 (variants rows w)).2 ≠ [] := by
          rw [h4]
          have hm : mapW (List.range N) w ∈ variants rows w := mem_variants.2 ⟨_, h.group.id_mem, rfl⟩
          intro he
          rw [List.map_eq_nil_iff] at he
          rw [he] at hm
          simp at hm
        have hmin := minTuple_spec _ hne
        generalize hrep : minTuple (canonAll nc om commuting (canonMemo nc om commuting m.canon flag w).1 (variants rows w)).2 = rep at hmin ⊢
        rw [h4] at hmin ⊢
        have hout : ∀ x ∈ (variants rows w).map (lexmonToCanonical nc), SameOrbit nc rows w x := by
          intro x hx
          rw [List.mem_map] at hx
          obtain ⟨v, hv, rfl⟩ := hx
          obtain ⟨r, hr, rfl⟩ := mem_variants.1 hv
          exact ⟨r, hr, canon_sound nc _⟩
        have hl : IsLeast nc rows w rep := by
          refine ⟨hout _ hmin.1, ?_⟩
          rintro u ⟨r, hr, e⟩
          have h5 := hmin.2 (lexmonToCanonical nc (mapW r w)) (List.mem_map.2 ⟨_, mem_variants.2 ⟨r, hr, rfl⟩, rfl⟩)
          have h6 : LexLE (lexmonToCanonical nc (mapW r w)) u := canon_least H e
          rw [← lexLe_iff] at h6 ⊢
          exact lexLe_trans _ _ _ h5 h6
        refine ⟨h3, ?_, hl⟩
        intro k v hkv
        rw [List.cons_append] at hkv
        rcases lookup_cons_some hkv with ⟨rfl, rfl⟩ | h'
        · exact ⟨hw, hl⟩
        · rcases lookup_append_map h' with ⟨hk, rfl⟩ | h'
          · have := hout k hk
            exact ⟨sameOrbit_lt h hw this, isLeast_congr h hw this hl⟩
          · exact hs k v h'

/-- A call of the representative function is only made on reduced words. -/
def OkCall (N : Nat) (nc om : BMat) : Call → Prop
  | .canon _ _ => True
  | .repr _ w => (∀ x ∈ w, x < N) ∧ Reduced nc om w

theorem after_ok (H : OperatorList N nc om meas) (h : SymData N nc om rows)
    (hcomm : commuting = true → ∀ a b, nc a b = false) (history : List Call) (hh : ∀ c ∈ history, OkCall N nc om c) :
    CanonOk nc om (after nc om commuting rows history).canon ∧ SymOk N nc rows (after nc om commuting rows history).sym := by
  have key : ∀ (history : List Call) (m : Mem), (∀ c ∈ history, OkCall N nc om c) → CanonOk nc om m.canon → SymOk N nc rows m.sym →
      CanonOk nc om (history.foldl (Call.run nc om commuting rows) m).canon ∧
      SymOk N nc rows (history.foldl (Call.run nc om commuting rows) m).sym := by
    intro history
    induction history with
    | nil => intro m _ h1 h2; exact ⟨h1, h2⟩
    | cons c t ih =>
      intro m hh h1 h2
      simp only [List.foldl_cons]
      have hc := hh c (by simp)
      cases c with
      | canon flag w =>
        exact ih _ (fun c hc => hh c (by simp [hc])) (canonMemo_ok H hcomm h1 flag w).1 h2
      | repr flag w =>
        obtain ⟨e1, e2, _⟩ := reprMemo_ok H h hcomm h1 h2 flag hc.1 hc.2
        exact ih _ (fun c hc => hh c (by simp [hc])) e1 e2
  exact key history _ hh (by intro k v hk; simp at hk) (by intro k v hk; simp at hk)

theorem isLeast_unique {w u v : List Nat} (h1 : IsLeast nc rows w u) (h2 : IsLeast nc rows w v) : u = v :=
  lexLe_antisymm _ _ ((lexLe_iff _ _).2 (h1.2 v h2.1)) ((lexLe_iff _ _).2 (h2.2 u h1.1))

end Verif.SdpRepr

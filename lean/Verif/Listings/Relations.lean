import Verif.Symbolic.MeasurementProps
/-!
C73: `commutation_relations` and `lexicographic_order`, the lists with which users look at the operators of a semidefinite program.
-/
namespace Verif.Listings
open Verif.Common Verif.Canon Verif.Scenario Verif.Moment Verif.SdpEnd Verif.Text Verif.Names
open Verif.State (Dict)
open Verif.EndToEnd (Input instr)
open Verif.Sanitise (naming NamesOk)
open Verif.Theory (bell Incompatible incompatible_iff incompatible_symm commute_classical)
open Verif.SdpNames (bellNames)

variable (I : Input) (names : List Str)

/-! ### The model -/

/-- `to_name([op], names)`, sdp/fast_npa.py 395-427; the row of the zero operator has party 0, and `names[-1]` is the last name. -/
def operatorText (op : Op) : Str :=
  (if op.party = 0 then names.getLast?.getD [] else names.getD (op.party - 1) []) ++ '_' :: joinNat '_' (op.copies ++ [op.setting, op.outcome])

/-- `to_name(lexorder[[i, j]], names).split('*')` and the assignment to two variables, sdp/quantum_tools.py 263-264. -/
def pairTexts (i j : Nat) : Option (Str × Str) :=
  (I.scenario.sdpLexorder[i]?).bind fun a => (I.scenario.sdpLexorder[j]?).bind fun b =>
    match splitAt '*' (joinStr '*' [operatorText names a, operatorText names b]) with
    | [x, y] => some (x, y)
    | _ => none

/-- `commutation_relations`, sdp/quantum_tools.py 242-271: the pair `(x, y)` stands for the expression `x * y - y * x`. -/
def commutationRelations : Option (List (Str × Str)) :=
  (((List.range (nOps I)).flatMap fun i => (List.range' i (nOps I - i)).map fun j => (i, j)).filter fun t => notcomm I t.1 t.2).mapM fun t => pairTexts I names t.1 t.2

/-- `lexicographic_order`, sdp/quantum_tools.py 402-421. -/
def lexicographicOrder : Dict Str Nat := I.scenario.sdpLexorder.zipIdx.foldl (fun d t => Dict.set d (operatorText names t.1) t.2) []

/-! ### Lemmas -/

variable {I names}

theorem text_eq {op : Op} (h : 1 ≤ op.party) : operatorText names op = toName names [op] := by
  unfold operatorText toName
  rw [if_neg (by omega)]
  rfl

theorem text_inj (hN : NamesOk I names) {a b : Op} (ha : Valid I.scenario a) (hb : Valid I.scenario b) (h : operatorText names a = operatorText names b) : a = b := by
  rw [text_eq ha.party_pos, text_eq hb.party_pos] at h
  have := C40_to_name_injective hN.fits (hN.avoids _ (by decide)) [a] [b] (by simpa using ha) (by simpa using hb) h
  simpa using this

theorem text_star (hN : NamesOk I names) {a : Op} (ha : Valid I.scenario a) : '*' ∉ operatorText names a := by
  intro h
  unfold operatorText at h
  rw [if_neg (by have := ha.party_pos; omega)] at h
  simp only [List.mem_append, List.mem_cons] at h
  rcases h with h | h | h
  · exact hN.avoid _ (name_mem hN.fits ha) '*' (by decide) h
  · revert h; decide
  · rcases mem_joinNat h with e | e
    · exact not_digit (by simp) e
    · revert e; decide

/-- The rows of ranks other than 0. -/
theorem row_succ {k : Nat} : I.scenario.sdpLexorder[k + 1]? = I.scenario.lexorder[k]? := by
  unfold Scenario.sdpLexorder
  rw [List.getElem?_cons_succ]

theorem notcomm_of {k l : Nat} {a b : Op} (hkl : k < l) (ha : I.scenario.lexorder[k]? = some a) (hb : I.scenario.lexorder[l]? = some b) :
    notcomm I (k + 1) (l + 1) = true ↔ Incompatible I.D a b := by
  obtain ⟨hl, e⟩ := List.getElem?_eq_some_iff.1 hb
  obtain ⟨hk, e'⟩ := List.getElem?_eq_some_iff.1 ha
  unfold notcomm padMat Scenario.notcomm
  simp only [Nat.add_sub_cancel]
  by_cases hq : I.anyNonclassical = true
  · rw [if_pos hq, commutationMatrix_lt hkl hl, e, e', incompatible_iff]
    simp
  · rw [if_neg hq]
    have := commute_classical (by simpa using hq : I.anyNonclassical = false) a b
    simp [this]

theorem notcomm_zero {i j : Nat} (h : notcomm I i j = true) : i ≠ 0 ∧ j ≠ 0 ∧ i ≠ j := by
  refine ⟨?_, ?_, ?_⟩
  · rintro rfl
    simp [notcomm, padMat] at h
  · rintro rfl
    simp [notcomm, padMat] at h
  · rintro rfl
    rw [SdpNames.notcomm_self] at h
    cases h

/-- The pairs of ranks. -/
def pairs (I : Input) : List (Nat × Nat) := ((List.range (nOps I)).flatMap fun i => (List.range' i (nOps I - i)).map fun j => (i, j)).filter fun t => notcomm I t.1 t.2

theorem mem_pairs {i j : Nat} : (i, j) ∈ pairs I ↔ ∃ k l a b, i = k + 1 ∧ j = l + 1 ∧ k < l ∧ I.scenario.lexorder[k]? = some a ∧ I.scenario.lexorder[l]? = some b ∧ Incompatible I.D a b := by
  unfold pairs
  rw [List.mem_filter, List.mem_flatMap]
  constructor
  · rintro ⟨⟨i', hi, hm⟩, hc⟩
    obtain ⟨j', hj, e⟩ := List.mem_map.1 hm
    simp only [Prod.mk.injEq] at e
    obtain ⟨rfl, rfl⟩ := e
    rw [List.mem_range'_1] at hj
    rw [List.mem_range] at hi
    obtain ⟨h1, h2, h3⟩ := notcomm_zero hc
    obtain ⟨k, rfl⟩ : ∃ k, i' = k + 1 := ⟨i' - 1, by omega⟩
    obtain ⟨l, rfl⟩ : ∃ l, j' = l + 1 := ⟨j' - 1, by omega⟩
    have hl : l < I.scenario.lexorder.length := by unfold nOps at hj hi; omega
    have hk : k < I.scenario.lexorder.length := by omega
    refine ⟨k, l, _, _, rfl, rfl, by omega, List.getElem?_eq_getElem hk, List.getElem?_eq_getElem hl, ?_⟩
    exact (notcomm_of (by omega) (List.getElem?_eq_getElem hk) (List.getElem?_eq_getElem hl)).1 hc
  · rintro ⟨k, l, a, b, rfl, rfl, hkl, ha, hb, hc⟩
    have hl := (List.getElem?_eq_some_iff.1 hb).1
    refine ⟨⟨k + 1, by rw [List.mem_range]; unfold nOps; omega, List.mem_map.2 ⟨l + 1, ?_, rfl⟩⟩, (notcomm_of hkl ha hb).2 hc⟩
    rw [List.mem_range'_1]
    unfold nOps
    omega

theorem nodup_pairs : (pairs I).Nodup := by
  unfold pairs
  apply List.Nodup.filter
  rw [List.nodup_flatMap]
  constructor
  · intro i _
    apply List.Nodup.map _ List.nodup_range'
    intro a b h
    simpa using h
  · refine List.nodup_range.imp ?_
    intro a b hab
    simp only [Function.onFun, List.disjoint_left, List.mem_map]
    rintro _ ⟨x, _, rfl⟩ ⟨y, _, h⟩
    simp only [Prod.mk.injEq] at h
    exact hab h.1.symm

theorem pairTexts_of (hN : NamesOk I names) {k l : Nat} {a b : Op} (ha : I.scenario.lexorder[k]? = some a) (hb : I.scenario.lexorder[l]? = some b) :
    pairTexts I names (k + 1) (l + 1) = some (operatorText names a, operatorText names b) := by
  have hva := (mem_lexorder I.scenario).1 (List.mem_of_getElem? ha)
  have hvb := (mem_lexorder I.scenario).1 (List.mem_of_getElem? hb)
  unfold pairTexts
  rw [row_succ, row_succ, ha, hb, Option.bind_some, Option.bind_some, splitAt_joinStr _ _ (by simp)]
  intro w hw
  simp only [List.mem_cons, List.not_mem_nil, or_false] at hw
  rcases hw with rfl | rfl
  · exact text_star hN hva
  · exact text_star hN hvb

/-! ### The properties -/

/-- **C73, the commutators**: the call succeeds, without repetitions, and the commutators are those of the pairs of operators, in the order of the operators, which do not commute in
the inflated network (`Incompatible`). -/
theorem C73_commutators (hN : NamesOk I names) : ∃ l, commutationRelations I names = some l ∧ l.Nodup ∧ ∀ x y, (x, y) ∈ l ↔
    ∃ (i j : Nat) (a b : Op), i < j ∧ I.scenario.lexorder[i]? = some a ∧ I.scenario.lexorder[j]? = some b ∧ Incompatible I.D a b ∧ x = operatorText names a ∧ y = operatorText names b := by
  have hp : ∀ t ∈ pairs I, ∃ a b, I.scenario.lexorder[t.1 - 1]? = some a ∧ I.scenario.lexorder[t.2 - 1]? = some b ∧
      pairTexts I names t.1 t.2 = some (operatorText names a, operatorText names b) := by
    rintro ⟨i, j⟩ ht
    obtain ⟨k, l, a, b, rfl, rfl, hkl, ha, hb, hc⟩ := mem_pairs.1 ht
    exact ⟨a, b, by simpa using ha, by simpa using hb, pairTexts_of hN ha hb⟩
  have hm : ∀ l : List (Nat × Nat), (∀ t ∈ l, t ∈ pairs I) → l.Nodup → ∃ r, (l.mapM fun t => pairTexts I names t.1 t.2) = some r ∧ r.Nodup ∧
      ∀ x, x ∈ r ↔ ∃ t ∈ l, pairTexts I names t.1 t.2 = some x := by
    intro l
    induction l with
    | nil => exact fun _ _ => ⟨[], rfl, by simp, by simp⟩
    | cons t l ih =>
      intro hl hnd
      obtain ⟨r, h1, h2, h3⟩ := ih (fun t ht => hl t (by simp [ht])) hnd.of_cons
      obtain ⟨a, b, ha, hb, e⟩ := hp t (hl t (by simp))
      refine ⟨(operatorText names a, operatorText names b) :: r, by rw [List.mapM_cons, e, h1]; rfl, ?_, ?_⟩
      · rw [List.nodup_cons]
        refine ⟨?_, h2⟩
        intro hin
        obtain ⟨t', ht', e'⟩ := (h3 _).1 hin
        obtain ⟨a', b', ha', hb', e''⟩ := hp t' (hl t' (by simp [ht']))
        rw [e''] at e'
        simp only [Option.some.injEq, Prod.mk.injEq] at e'
        have va := (mem_lexorder I.scenario).1 (List.mem_of_getElem? ha)
        have vb := (mem_lexorder I.scenario).1 (List.mem_of_getElem? hb)
        have va' := (mem_lexorder I.scenario).1 (List.mem_of_getElem? ha')
        have vb' := (mem_lexorder I.scenario).1 (List.mem_of_getElem? hb')
        obtain rfl := text_inj hN va' va e'.1
        obtain rfl := text_inj hN vb' vb e'.2
        have inj : ∀ {k l : Nat} {c : Op}, I.scenario.lexorder[k]? = some c → I.scenario.lexorder[l]? = some c → k = l := by
          intro k l c hk hl
          obtain ⟨h1, e1⟩ := List.getElem?_eq_some_iff.1 hk
          obtain ⟨h2, e2⟩ := List.getElem?_eq_some_iff.1 hl
          exact (List.Nodup.getElem_inj_iff (lexorder_nodup I.scenario)).1 (e1.trans e2.symm)
        have i1 := inj ha ha'
        have i2 := inj hb hb'
        obtain ⟨k, l, -, -, e1, e2, -⟩ := mem_pairs.1 (hl t (by simp))
        obtain ⟨k', l', -, -, e3, e4, -⟩ := mem_pairs.1 (hl t' (by simp [ht']))
        have : t = t' := Prod.ext (by omega) (by omega)
        rw [List.nodup_cons, this] at hnd
        exact hnd.1 ht'
      · intro x
        rw [List.mem_cons, h3]
        constructor
        · rintro (rfl | ⟨t', ht', e'⟩)
          · exact ⟨t, by simp, e⟩
          · exact ⟨t', by simp [ht'], e'⟩
        · rintro ⟨t', ht', e'⟩
          rcases List.mem_cons.1 ht' with rfl | ht'
          · exact .inl (Option.some.inj (e'.symm.trans e))
          · exact .inr ⟨t', ht', e'⟩
  obtain ⟨l, h1, h2, h3⟩ := hm (pairs I) (fun _ h => h) nodup_pairs
  refine ⟨l, h1, h2, fun x y => ?_⟩
  rw [h3]
  constructor
  · rintro ⟨⟨i, j⟩, ht, e⟩
    obtain ⟨k, l, a, b, rfl, rfl, hkl, ha, hb, hc⟩ := mem_pairs.1 ht
    rw [pairTexts_of hN ha hb] at e
    simp only [Option.some.injEq, Prod.mk.injEq] at e
    exact ⟨k, l, a, b, hkl, ha, hb, hc, e.1.symm, e.2.symm⟩
  · rintro ⟨k, l, a, b, hkl, ha, hb, hc, rfl, rfl⟩
    exact ⟨(k + 1, l + 1), mem_pairs.2 ⟨k, l, a, b, rfl, rfl, hkl, ha, hb, hc⟩, pairTexts_of hN ha hb⟩

/-- **C73, every pair once**: for two operators of the problem one of the two orders of the commutator is listed if they do not commute, never both, and none if they commute. The two symbols
of an entry are different, so no commutator vanishes by itself. -/
theorem C73_each_pair_once (hN : NamesOk I names) : ∃ l, commutationRelations I names = some l ∧ (∀ x y, (x, y) ∈ l → x ≠ y ∧ (y, x) ∉ l) ∧
    ∀ a b, Valid I.scenario a → Valid I.scenario b → (Incompatible I.D a b ↔ (operatorText names a, operatorText names b) ∈ l ∨ (operatorText names b, operatorText names a) ∈ l) := by
  obtain ⟨l, h1, -, h3⟩ := C73_commutators hN
  have inj : ∀ {k l : Nat} {c : Op}, I.scenario.lexorder[k]? = some c → I.scenario.lexorder[l]? = some c → k = l := by
    intro k l c hk hl
    obtain ⟨h1, e1⟩ := List.getElem?_eq_some_iff.1 hk
    obtain ⟨h2, e2⟩ := List.getElem?_eq_some_iff.1 hl
    exact (List.Nodup.getElem_inj_iff (lexorder_nodup I.scenario)).1 (e1.trans e2.symm)
  have val : ∀ {k : Nat} {c : Op}, I.scenario.lexorder[k]? = some c → Valid I.scenario c := fun h => (mem_lexorder I.scenario).1 (List.mem_of_getElem? h)
  refine ⟨l, h1, ?_, ?_⟩
  · intro x y h
    obtain ⟨i, j, a, b, hij, ha, hb, hc, rfl, rfl⟩ := (h3 x y).1 h
    constructor
    · intro e
      obtain rfl := text_inj hN (val ha) (val hb) e
      have := inj ha hb
      omega
    · intro h'
      obtain ⟨i', j', a', b', hij', ha', hb', hc', e1, e2⟩ := (h3 _ _).1 h'
      obtain rfl := text_inj hN (val hb) (val ha') e1
      obtain rfl := text_inj hN (val ha) (val hb') e2
      have := inj hb ha'
      have := inj ha hb'
      omega
  · intro a b ha hb
    obtain ⟨i, hi⟩ := List.getElem?_of_mem ((mem_lexorder I.scenario).2 ha)
    obtain ⟨j, hj⟩ := List.getElem?_of_mem ((mem_lexorder I.scenario).2 hb)
    constructor
    · intro hc
      rcases Nat.lt_trichotomy i j with h | rfl | h
      · exact .inl ((h3 _ _).2 ⟨i, j, a, b, h, hi, hj, hc, rfl, rfl⟩)
      · obtain rfl := Option.some.inj (hi.symm.trans hj)
        have := operatorsCommute_self_key (tbl := I.D.tbl) (a := a) (b := a) rfl
        rw [(incompatible_iff _ _ _).1 hc] at this
        cases this
      · exact .inr ((h3 _ _).2 ⟨j, i, b, a, h, hj, hi, incompatible_symm hc, rfl, rfl⟩)
    · rintro (h | h)
      · obtain ⟨i', j', a', b', -, ha', hb', hc', e1, e2⟩ := (h3 _ _).1 h
        obtain rfl := text_inj hN ha (val ha') e1
        obtain rfl := text_inj hN hb (val hb') e2
        exact hc'
      · obtain ⟨i', j', a', b', -, ha', hb', hc', e1, e2⟩ := (h3 _ _).1 h
        obtain rfl := text_inj hN hb (val ha') e1
        obtain rfl := text_inj hN ha (val hb') e2
        exact incompatible_symm hc'

/-! ### The lexicographic order -/

theorem get_foldl (l : List (Str × Nat)) (d : Dict Str Nat) (hnd : (l.map Prod.fst).Nodup) (x : Str) :
    (l.foldl (fun d t => Dict.set d t.1 t.2) d).get x = (Dict.get l x).or (d.get x) := by
  induction l generalizing d with
  | nil => rfl
  | cons t l ih =>
    obtain ⟨a, n⟩ := t
    rw [List.map_cons, List.nodup_cons] at hnd
    rw [List.foldl_cons, ih _ hnd.2, State.get_set, State.get_cons]
    by_cases h : a = x
    · subst h
      have : Dict.get l a = none := (State.get_none l a).2 hnd.1
      rw [this]
      simp
    · simp [h]

/-- The text of the row of the zero operator is not that of an operator, if every party has a source. -/
theorem zero_text (hN : NamesOk I names) (hs : Sourced I.scenario) {a : Op} (ha : Valid I.scenario a) : operatorText names (zeroOp I.scenario.nSources) ≠ operatorText names a := by
  intro h
  have h1 := ha.party_pos
  have h2 := ha.party_le
  have hlen : names.length = I.scenario.nParties := hN.len
  have hn : names ≠ [] := by
    rintro rfl
    simp at hlen
    omega
  have hlast : '_' ∉ names.getLast?.getD [] := by
    rw [List.getLast?_eq_some_getLast hn]
    exact hN.avoid _ (List.getLast_mem hn) '_' (by decide)
  have hname : '_' ∉ names.getD (a.party - 1) [] := hN.avoid _ (name_mem hN.fits ha) '_' (by decide)
  unfold operatorText at h
  rw [if_neg (by omega : ¬ a.party = 0)] at h
  have st : ∀ w : Str, Stops (fun x => ¬ x = '_') ('_' :: w) := fun w => stops_cons (by simp)
  obtain ⟨-, e2⟩ := span_inj (P := fun x => ¬ x = '_') (fun x hx e => hlast (e ▸ hx)) (fun x hx e => hname (e ▸ hx)) (st _) (st _) h
  have e3 : joinNat '_' (List.replicate I.scenario.nSources 0 ++ [0, 0]) ++ [] = joinNat '_' (a.copies ++ [a.setting, a.outcome]) ++ [] := by
    rw [List.append_nil, List.append_nil]
    exact (List.cons.inj e2).2
  obtain ⟨e4, -⟩ := joinNat_span_len (not_digit (by simp)) (by simp [ha.copies_len]) stops_nil stops_nil e3
  obtain ⟨e5, -⟩ := List.append_inj e4 (by rw [ha.copies_len]; simp)
  obtain ⟨s, hs1, hs2⟩ := hs (a.party - 1) (by omega)
  have hl : s < a.copies.length := by rw [ha.copies_len]; exact hs1
  have := ha.copies_ok s hl
  rw [if_pos hs2] at this
  have e6 : a.copies[s] = 0 := by
    have : a.copies[s]? = some 0 := by
      rw [← e5, List.getElem?_replicate]
      simp [hs1]
    rw [List.getElem?_eq_getElem hl] at this
    exact Option.some.inj this
  omega

theorem order_nodup (hN : NamesOk I names) (hs : Sourced I.scenario) : (I.scenario.sdpLexorder.map (operatorText names)).Nodup := by
  unfold Scenario.sdpLexorder
  rw [List.map_cons, List.nodup_cons]
  constructor
  · intro h
    obtain ⟨a, ha, e⟩ := List.mem_map.1 h
    exact zero_text hN hs ((mem_lexorder _).1 ha) e.symm
  · apply List.Nodup.map_on _ (lexorder_nodup _)
    intro a ha b hb h
    exact text_inj hN ((mem_lexorder _).1 ha) ((mem_lexorder _).1 hb) h

theorem get_order (hN : NamesOk I names) (hs : Sourced I.scenario) (x : Str) (k : Nat) :
    (lexicographicOrder I names).get x = some k ↔ ∃ a, I.scenario.sdpLexorder[k]? = some a ∧ operatorText names a = x := by
  have hnd := order_nodup hN hs
  unfold lexicographicOrder
  have e : ∀ (l : List (Op × Nat)) (d : Dict Str Nat), l.foldl (fun d t => Dict.set d (operatorText names t.1) t.2) d =
      (l.map fun t => (operatorText names t.1, t.2)).foldl (fun d t => Dict.set d t.1 t.2) d := by
    intro l d
    rw [List.foldl_map]
  have hk : ((I.scenario.sdpLexorder.zipIdx.map fun t => (operatorText names t.1, t.2)).map Prod.fst).Nodup := by
    rw [List.map_map]
    have : (Prod.fst ∘ fun t : Op × Nat => (operatorText names t.1, t.2)) = operatorText names ∘ Prod.fst := rfl
    rw [this, ← List.map_map, List.zipIdx_map_fst]
    exact hnd
  rw [e, get_foldl _ _ hk]
  simp only [State.get_nil, Option.or_none]
  constructor
  · intro h
    have := (State.get_of_mem _ hk _ _).2 h
    obtain ⟨t, ht, e⟩ := List.mem_map.1 this
    simp only [Prod.mk.injEq] at e
    obtain ⟨e1, rfl⟩ := e
    exact ⟨t.1, List.mem_zipIdx_iff_getElem?.1 ht, e1⟩
  · rintro ⟨a, ha, rfl⟩
    apply (State.get_of_mem _ hk _ _).1
    exact List.mem_map.2 ⟨(a, k), List.mem_zipIdx_iff_getElem?.2 ha, rfl⟩

/-- **C73, the positions**: every operator of the problem is listed with its position in the order of the program (the rank that one-dimensional monomials use), and every other entry but
one is of this form. -/
theorem C73_positions (hN : NamesOk I names) (hs : Sourced I.scenario) {k : Nat} {a : Op} (h : I.scenario.lexorder[k]? = some a) :
    (lexicographicOrder I names).get (operatorText names a) = some (k + 1) :=
  (get_order hN hs _ _).2 ⟨a, by rw [row_succ]; exact h, rfl⟩

/-- **C73, the entries**: besides the operators there is one entry, at position 0. -/
theorem C73_entries (hN : NamesOk I names) (hs : Sourced I.scenario) (x : Str) (n : Nat) : (lexicographicOrder I names).get x = some n ↔
    (n = 0 ∧ x = operatorText names (zeroOp I.scenario.nSources)) ∨ ∃ k a, n = k + 1 ∧ I.scenario.lexorder[k]? = some a ∧ x = operatorText names a := by
  rw [get_order hN hs]
  cases n with
  | zero =>
    unfold Scenario.sdpLexorder
    simp [eq_comm]
  | succ k =>
    rw [row_succ]
    simp [eq_comm]

/-- **C73, refuted: the keys are the monomials of the problem**. The entry at position 0 looks like an operator of the last party, but is the name of no operator. -/
theorem C73_false_extra_entry (hN : NamesOk I names) (hs : Sourced I.scenario) : ∃ x, (lexicographicOrder I names).get x = some 0 ∧ ∀ a, Valid I.scenario a → operatorText names a ≠ x :=
  ⟨_, (C73_entries hN hs _ _).2 (.inl ⟨rfl, rfl⟩), fun _ ha h => zero_text hN hs ha h.symm⟩

/-! ### Witnesses -/

/-- The commutators of the Bell scenario. -/
example : commutationRelations bell bellNames = some [("A_1_0_0".toList, "A_1_1_0".toList), ("A_1_0_0".toList, "A_1_1_1".toList), ("A_1_0_1".toList, "A_1_1_0".toList), ("A_1_0_1".toList, "A_1_1_1".toList),
    ("B_1_0_0".toList, "B_1_1_0".toList), ("B_1_0_0".toList, "B_1_1_1".toList), ("B_1_0_1".toList, "B_1_1_0".toList), ("B_1_0_1".toList, "B_1_1_1".toList)] := by decide +kernel

/-- The list starts with an operator that does not exist. -/
example : (lexicographicOrder bell bellNames).take 2 = [("B_0_0_0".toList, 0), ("A_1_0_0".toList, 1)] := by decide +kernel

end Verif.Listings

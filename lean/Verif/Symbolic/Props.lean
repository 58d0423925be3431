import Verif.Symbolic.Model
/-!
C71: generating sets returned as SymPy expressions, or written as arrays, are read as the same generating sets.
-/
namespace Verif.Symbolic
open Verif.Common Verif.Canon Verif.Scenario Verif.Moment Verif.SdpEnd Verif.SdpNames Verif.Text Verif.Names Verif.Generate Verif.SdpRepr
open Verif.State (Dict)
open Verif.EndToEnd (Input)
open Verif.Sanitise (naming NamesOk wrapOp wrapOp_valid)

variable {I : Input} {names : List Str} {atoms : Str → Option (List Op)} {order : List Str}

/-! ### Products of symbols -/

theorem flatten_times (l : List (Str × Nat)) (s : Str) : flatten (timesSymbol l s) = flatten l ++ [s] := by
  induction l with
  | nil => rfl
  | cons f l ih =>
    cases l with
    | nil =>
      rw [timesSymbol]
      split
      · rename_i h
        simp [flatten, List.replicate_succ', h]
      · simp [flatten]
    | cons g l =>
      rw [timesSymbol]
      have e : ∀ t, flatten (f :: t) = List.replicate f.2 f.1 ++ flatten t := fun t => rfl
      rw [e, ih, e, List.append_assoc]

theorem times_ne (l : List (Str × Nat)) (s : Str) : timesSymbol l s ≠ [] := by
  cases l with
  | nil => simp [timesSymbol]
  | cons f l => cases l <;> rw [timesSymbol] <;> (try split) <;> simp

theorem foldl_zero (l : List (Option Str)) : l.foldl times .zero = .zero := by
  induction l with
  | nil => rfl
  | cons a l ih => exact ih

theorem foldl_symbols (w : List Str) (l : List (Str × Nat)) :
    ∃ l', (w.map some).foldl times (.prod l) = .prod l' ∧ flatten l' = flatten l ++ w ∧ (l' = [] ↔ l = [] ∧ w = []) := by
  induction w generalizing l with
  | nil => exact ⟨l, rfl, by simp, by simp⟩
  | cons s w ih =>
    obtain ⟨l', h1, h2, h3⟩ := ih (timesSymbol l s)
    refine ⟨l', h1, by rw [h2, flatten_times, List.append_assoc]; rfl, ?_⟩
    rw [h3]
    simp [times_ne]

theorem foldl_none {l : List (Option Str)} (h : none ∈ l) (e : Expr) : l.foldl times e = .zero := by
  induction l generalizing e with
  | nil => simp at h
  | cons a l ih =>
    rcases List.mem_cons.1 h with h | h
    · rw [List.foldl_cons, ← h]
      have : times e none = .zero := by cases e <;> rfl
      rw [this, foldl_zero]
    · exact ih h _

/-! ### The names of operators -/

/-- The operator of a rank. -/
theorem operator_of {r : Nat} (h0 : r ≠ 0) (hr : r < nOps I) : ∃ op, I.scenario.lexorder[r - 1]? = some op ∧ Valid I.scenario op ∧ I.scenario.sdpLexorder[r]? = some op := by
  have hl : r - 1 < I.scenario.lexorder.length := by
    unfold nOps at hr
    omega
  refine ⟨I.scenario.lexorder[r - 1], List.getElem?_eq_getElem hl, (mem_lexorder _).1 (List.getElem_mem hl), ?_⟩
  unfold Scenario.sdpLexorder
  obtain ⟨k, rfl⟩ : ∃ k, r = k + 1 := ⟨r - 1, by omega⟩
  rw [List.getElem?_cons_succ]
  exact List.getElem?_eq_getElem hl

/-- The name of an operator, with its parts. -/
theorem opName_plain {c : Bool} {i : Interp} (hd : i.doValues = []) : ∃ u, opName c i = u ++ natStr i.outcome ∧ u ≠ [] ∧
    (∀ x ∈ u, x ∈ i.party ∨ x ∈ ['_', '^', '{', '}', '=', ','] ∨ Digit x) := by
  refine ⟨i.party ++ (if i.privateTrivial then [] else '_' :: natStr i.priv) ++
    (if c then (if i.relevant.isEmpty then [] else '^' :: '{' :: joinNat ',' i.relevant ++ ['}']) ++ '_' :: joinNat '_' i.copies else []) ++ ['='], ?_, by simp, ?_⟩
  · unfold opName
    rw [hd]
    simp
  · have hdig : ∀ n x, x ∈ natStr n → Digit x := fun n x hx => natStr_digit n x hx
    have hj : ∀ sep l x, x ∈ joinNat sep l → x = sep ∨ Digit x := fun sep l x hx => joinNat_mem hx
    intro x hx
    simp only [List.mem_append] at hx
    rcases hx with ((hx | hx) | hx) | hx
    · exact .inl hx
    · split at hx
      · simp at hx
      · rcases List.mem_cons.1 hx with rfl | hx
        · simp
        · exact .inr (.inr (hdig _ _ hx))
    · split at hx
      · rw [List.mem_append] at hx
        rcases hx with hx | hx
        · split at hx
          · simp at hx
          · simp only [List.cons_append, List.mem_cons, List.mem_append, List.not_mem_nil, or_false] at hx
            rcases hx with rfl | rfl | hx | rfl
            · simp
            · simp
            · rcases hj _ _ _ hx with rfl | hx
              · simp
              · exact .inr (.inr hx)
            · simp
        · rcases List.mem_cons.1 hx with rfl | hx
          · simp
          · rcases hj _ _ _ hx with rfl | hx
            · simp
            · exact .inr (.inr hx)
      · simp at hx
    · simp at hx
      subst hx
      simp

theorem opName_do {c : Bool} {i : Interp} (hd : i.doValues ≠ []) : ∃ u, opName c i = u ++ [')'] ∧ '|' ∈ u ∧ ∃ v, opName c i = v ++ '=' :: natStr i.outcome ++ ['|', 'd', 'o', '('] ++ joinStr ',' (i.doValues.map doText) ++ [')'] := by
  have hne : i.doValues.isEmpty = false := by simpa using hd
  refine ⟨i.party ++ (if i.privateTrivial then [] else '_' :: natStr i.priv) ++
    (if c then (if i.relevant.isEmpty then [] else '^' :: '{' :: joinNat ',' i.relevant ++ ['}']) ++ '_' :: joinNat '_' i.copies else []) ++ '=' :: natStr i.outcome ++
    (['|', 'd', 'o', '('] ++ joinStr ',' (i.doValues.map doText)), ?_, by simp, i.party ++ (if i.privateTrivial then [] else '_' :: natStr i.priv) ++
    (if c then (if i.relevant.isEmpty then [] else '^' :: '{' :: joinNat ',' i.relevant ++ ['}']) ++ '_' :: joinNat '_' i.copies else []), ?_⟩
  · unfold opName
    rw [hne]
    simp
  · unfold opName
    rw [hne]
    simp

/-- `atom_from_name` (InflationSDP.py 520-527) maps names and legacy names of the atoms of moments of the program. -/
def AtomTable (I : Input) (names : List Str) (ch : Choice) (atoms : Str → Option (List Op)) : Prop :=
  ∀ t rows, atoms t = some rows → ∃ a, (Plain I a ∨ a = [0]) ∧ (AtomNamed I names a t ∨ AtomLegacy I names ch a t)

/-- Names of atoms contain a bracket or no sign of equality. -/
theorem atom_names (hN : NamesOk I names) {ch : Choice} {t : Str} {a : Atom} (ha : Plain I a ∨ a = [0]) (h : AtomNamed I names a t ∨ AtomLegacy I names ch a t) :
    '[' ∈ t ∨ '<' ∈ t ∨ '=' ∉ t := by
  have hz : legacyText I names [0] = ['0'] := by simp [legacyText, isZero]
  rcases h with h | h
  · rcases ha with ha | rfl
    · obtain ⟨f, com, rfl, -⟩ := named_form ha h
      obtain ⟨u, e, -⟩ := nameWith_form hN f com ha.nonzero
      rw [e]
      cases com <;> simp
    · cases h with
      | created =>
        right; right
        have : createdText I names [0] = ['0'] := by simp [createdText, isZero]
        rw [this]
        decide
      | adjoint h => simp [allCommuting, notcomm_self] at h
  · cases h with
    | own =>
      rcases ha with ha | rfl
      · exact .inr (.inr (legacy_no_eq_sign hN ha.nonzero))
      · right; right
        rw [hz]
        decide
    | original hb h0 e hne => exact .inr (.inr (legacy_no_eq_sign hN h0))

/-- The operator of the rank belongs to a party without observed parents. -/
def Parentless (I : Input) (r : Nat) : Prop := ∀ op, I.scenario.lexorder[r - 1]? = some op → I.parents (op.party - 1) = []

theorem ranks_of_rank {r : Nat} (h0 : r ≠ 0) (hr : r < nOps I) :
    ([r].mapM fun r => I.scenario.sdpLexorder[r]?).bind (Optimum.ranksOf I) = some [r] := by
  obtain ⟨op, hop, hv, hs⟩ := operator_of h0 hr
  have : Theory.sdpRank I op = r := by
    unfold Theory.sdpRank
    obtain ⟨hl, e⟩ := List.getElem?_eq_some_iff.1 hop
    rw [← e, List.Nodup.idxOf_getElem (lexorder_nodup _)]
    omega
  simp only [List.mapM_cons, List.mapM_nil, hs]
  show Optimum.ranksOf I [op] = _
  rw [Optimum.ranksOf_valid (by simpa using hv), List.map_cons, this]
  rfl

/-- The name of an operator is that of no moment. -/
theorem name_free (hN : NamesOk I names) {ch : Choice} (hA : AtomTable I names ch atoms) {op : Op} (hv : Valid I.scenario op) {t : Str}
    (ht : displayName I.scenario (naming I names) op = some t) : atoms t = none := by
  rcases ha : atoms t with _ | rows
  · rfl
  exfalso
  obtain ⟨a, h1, h2⟩ := hA t rows ha
  have h3 := atom_names hN h1 h2
  obtain ⟨i, hi, rfl⟩ := Option.map_eq_some_iff.1 ht
  obtain ⟨u, hI⟩ := interp_of hN.fits hv hi
  have hparty : i.party ∈ names := by rw [hI.party]; exact name_mem hN.fits hv
  have hdo : ∀ kv ∈ i.doValues, kv.1 ∈ names := (Sanitise.interps_facts hN (w := [op]) (iw := [i]) (by simpa using hv) (.cons hi .nil) i (by simp)).2
  have hn : ∀ n c, ¬ Digit c → c ∉ natStr n := fun n c h h' => h (natStr_digit n c h')
  have hne : ∀ c, c = '[' ∨ c = '<' → c ∉ opName (anyInflation I.scenario) i := by
    intro c hc h
    have hcd : ¬ Digit c := by rcases hc with rfl | rfl <;> simp [Digit]
    have hcp : ∀ n ∈ names, c ∉ n := by
      intro n hn
      exact hN.avoid n hn c (by rcases hc with rfl | rfl <;> decide)
    by_cases hd : i.doValues = []
    · obtain ⟨u, e, -, hu⟩ := opName_plain (c := anyInflation I.scenario) hd
      rw [e, List.mem_append] at h
      rcases h with h | h
      · rcases hu c h with h | h | h
        · exact hcp _ hparty h
        · rcases hc with rfl | rfl <;> revert h <;> decide
        · exact hcd h
      · exact hn _ _ hcd h
    · obtain ⟨u0, e0, -, hu0⟩ := opName_plain (c := anyInflation I.scenario) (i := { i with doValues := [] }) rfl
      have e : opName (anyInflation I.scenario) i = opName (anyInflation I.scenario) { i with doValues := [] } ++ (['|', 'd', 'o', '('] ++ joinStr ',' (i.doValues.map doText) ++ [')']) := by
        have hne : i.doValues.isEmpty = false := by simpa using hd
        unfold opName
        rw [hne]
        simp
      rw [e, e0] at h
      simp only [List.mem_append] at h
      rcases h with (h | h) | (h | h) | h
      · rcases hu0 c h with h | h | h
        · exact hcp _ hparty h
        · rcases hc with rfl | rfl <;> revert h <;> decide
        · exact hcd h
      · exact hn _ _ hcd h
      · rcases hc with rfl | rfl <;> revert h <;> decide
      · rcases mem_joinStr h with h | ⟨w, hw, h⟩
        · rcases hc with rfl | rfl <;> revert h <;> decide
        · obtain ⟨kv, hkv, rfl⟩ := List.mem_map.1 hw
          unfold doText at h
          rw [List.mem_append, List.mem_cons] at h
          rcases h with h | h | h
          · exact hcp _ (hdo _ hkv) h
          · rcases hc with rfl | rfl <;> revert h <;> decide
          · exact hn _ _ hcd h
      · rcases hc with rfl | rfl <;> revert h <;> decide
  rcases h3 with h | h | h
  · exact hne _ (.inl rfl) h
  · exact hne _ (.inr rfl) h
  · exact h (eq_mem_opName _ i)

theorem symbolOf_some (hN : NamesOk I names) {r : Nat} (h0 : r ≠ 0) (hr : r < nOps I) : ∃ op t, I.scenario.lexorder[r - 1]? = some op ∧ Valid I.scenario op ∧
    displayName I.scenario (naming I names) op = some t ∧ symbolOf I names r = some t := by
  obtain ⟨op, hop, hv, -⟩ := operator_of h0 hr
  obtain ⟨i, u, hi, -⟩ := interpret_some hN.fits hv
  refine ⟨op, opName (anyInflation I.scenario) i, hop, hv, by simp [displayName, hi], ?_⟩
  unfold symbolOf
  rw [if_neg h0, hop]
  simp [displayName, hi]

/-- Names of operators of parties without observed parents are read. -/
theorem readFactor_op (hN : NamesOk I names) {ch : Choice} (hA : AtomTable I names ch atoms) {r : Nat} (h0 : r ≠ 0) (hr : r < nOps I) (hp : Parentless I r) {t : Str}
    (ht : symbolOf I names r = some t) : readFactor I names atoms order t = some [r] := by
  obtain ⟨op, t', hop, hv, hd, ht'⟩ := symbolOf_some hN h0 hr
  obtain rfl := Option.some.inj (ht.symm.trans ht')
  unfold readFactor
  rw [name_free hN hA hv hd]
  obtain ⟨d, e, hget⟩ := (C40_names_read_back hN.fits (hN.avoids _ (by decide)) (r - 1) op hop t (.inl hd)).2
  have hr' : r - 1 + 1 = r := by omega
  rw [hr'] at hget
  dsimp only
  rw [e, Option.bind_some]
  obtain ⟨i, hi, rfl⟩ := Option.map_eq_some_iff.1 hd
  obtain ⟨u, hI⟩ := interp_of hN.fits hv hi
  have hdo : i.doValues = [] := by
    rw [hI.doValues]
    have : (naming I names).parents (op.party - 1) = [] := hp op hop
    rw [this]
    rfl
  have hparty : i.party ∈ names := by rw [hI.party]; exact name_mem hN.fits hv
  obtain ⟨v, ev, hne, hv'⟩ := opName_plain (c := anyInflation I.scenario) hdo
  have hat : interpretAtomic d order (opName (anyInflation I.scenario) i) = some [r] := by
    unfold interpretAtomic
    obtain ⟨x, y, hxy⟩ := List.exists_cons_of_ne_nil hne
    have hnat := List.dropLast_append_getLast (natStr_ne_nil i.outcome)
    have hlast : (opName (anyInflation I.scenario) i).getLast? = some ((natStr i.outcome).getLast (natStr_ne_nil _)) := by
      rw [ev, List.getLast?_append, List.getLast?_eq_some_getLast (natStr_ne_nil _)]
      rfl
    have hdig : Digit ((natStr i.outcome).getLast (natStr_ne_nil _)) := natStr_digit _ _ (List.getLast_mem _)
    have hhead : (opName (anyInflation I.scenario) i).head? = some x := by rw [ev, hxy]; rfl
    rw [hlast, hhead]
    generalize (natStr i.outcome).getLast (natStr_ne_nil _) = z at hdig
    have hno : ∀ c, c = '|' ∨ c = ' ' → c ∉ opName (anyInflation I.scenario) i := by
      intro c hc h
      have hcd : ¬ Digit c := by rcases hc with rfl | rfl <;> simp [Digit]
      rw [ev, List.mem_append] at h
      rcases h with h | h
      · rcases hv' c h with h | h | h
        · exact hN.avoid _ hparty c (by rcases hc with rfl | rfl <;> decide) h
        · rcases hc with rfl | rfl <;> revert h <;> decide
        · exact hcd h
      · exact hcd (natStr_digit _ _ h)
    have hz : ¬ (z = '>' ∨ z = ')' ∨ z = ']' ∨ z = '}') := by
      rintro (rfl | rfl | rfl | rfl) <;> simp [Digit] at hdig
    simp only
    rw [if_pos (.inr (.inr ⟨hno _ (.inl rfl), hno _ (.inr rfl)⟩)), if_neg hz, hget]
    rfl
  rw [hat, Option.bind_some]
  exact ranks_of_rank h0 hr

/-- Names of operators of parties with observed parents are not. -/
theorem readFactor_do (hN : NamesOk I names) {ch : Choice} (hA : AtomTable I names ch atoms) {r : Nat} (h0 : r ≠ 0) (hr : r < nOps I) (hp : ¬ Parentless I r) {t : Str}
    (ht : symbolOf I names r = some t) : readFactor I names atoms order t = none := by
  obtain ⟨op, t', hop, hv, hd, ht'⟩ := symbolOf_some hN h0 hr
  obtain rfl := Option.some.inj (ht.symm.trans ht')
  unfold readFactor
  rw [name_free hN hA hv hd]
  obtain ⟨d, e, -⟩ := (C40_names_read_back hN.fits (hN.avoids _ (by decide)) (r - 1) op hop t (.inl hd)).2
  dsimp only
  rw [e, Option.bind_some]
  obtain ⟨i, hi, rfl⟩ := Option.map_eq_some_iff.1 hd
  obtain ⟨u, hI⟩ := interp_of hN.fits hv hi
  have hdo : i.doValues ≠ [] := by
    rw [hI.doValues]
    intro h
    apply hp
    intro op' hop'
    obtain rfl := Option.some.inj (hop.symm.trans hop')
    have hlen := congrArg List.length h
    rw [List.length_zip, List.length_map, List.length_tail, hI.lenT] at hlen
    simp at hlen
    exact hlen
  have hparty : i.party ∈ names := by rw [hI.party]; exact name_mem hN.fits hv
  obtain ⟨v, ev, hbar, -⟩ := opName_do (c := anyInflation I.scenario) hdo
  unfold interpretAtomic
  have hlast : (opName (anyInflation I.scenario) i).getLast? = some ')' := by rw [ev]; simp
  rw [hlast]
  rcases hh : (opName (anyInflation I.scenario) i).head? with _ | x
  · rfl
  · simp only
    rw [if_neg]
    · rfl
    · rintro (⟨-, h⟩ | ⟨-, h⟩ | ⟨h, -⟩)
      · revert h; decide
      · revert h; decide
      · exact h (by rw [ev, List.mem_append]; exact .inl hbar)

/-! ### The properties -/

/-- The columns of a generating set are products of operators of the problem, without the zero operator. -/
structure Letters (I : Input) (cols : List (List Nat)) : Prop where
  lt : ∀ m ∈ cols, ∀ x ∈ m, x < nOps I
  nonzero : ∀ m ∈ cols, 0 ∉ m

/-- A column as an expression. -/
theorem expr_of (hN : NamesOk I names) {m : List Nat} (hlt : ∀ x ∈ m, x < nOps I) (h0 : 0 ∉ m) :
    ∃ (w : List Str) (l : List (Str × Nat)), m.map (symbolOf I names) = w.map some ∧ (m.map (symbolOf I names)).foldl times (.prod []) = .prod l ∧ flatten l = w ∧ (l = [] ↔ m = []) := by
  have : ∃ w : List Str, m.map (symbolOf I names) = w.map some := by
    induction m with
    | nil => exact ⟨[], rfl⟩
    | cons r m ih =>
      obtain ⟨w, hw⟩ := ih (fun x hx => hlt x (by simp [hx])) (fun h => h0 (by simp [h]))
      obtain ⟨-, t, -, -, -, ht⟩ := symbolOf_some hN (r := r) (by rintro rfl; simp at h0) (hlt r (by simp))
      exact ⟨t :: w, by simp [hw, ht]⟩
  obtain ⟨w, hw⟩ := this
  obtain ⟨l, h1, h2, h3⟩ := foldl_symbols w []
  refine ⟨w, l, hw, by rw [hw, h1], by simpa [flatten] using h2, ?_⟩
  rw [h3]
  have := congrArg List.length hw
  simp only [List.length_map] at this
  constructor
  · rintro ⟨-, rfl⟩; exact List.eq_nil_of_length_eq_zero (by simpa using this)
  · rintro rfl; exact ⟨rfl, List.eq_nil_of_length_eq_zero (by simpa using this.symm)⟩

theorem readFactors (hN : NamesOk I names) {ch : Choice} (hA : AtomTable I names ch atoms) {m : List Nat} (hlt : ∀ x ∈ m, x < nOps I) (h0 : 0 ∉ m) {w : List Str}
    (hw : m.map (symbolOf I names) = w.map some) : (∀ x ∈ m, Parentless I x) ∧ w.mapM (readFactor I names atoms order) = some (m.map fun x => [x]) ∨
    (¬ ∀ x ∈ m, Parentless I x) ∧ w.mapM (readFactor I names atoms order) = none := by
  induction m generalizing w with
  | nil =>
    cases w with
    | nil => exact .inl ⟨by simp, rfl⟩
    | cons t w => simp at hw
  | cons r m ih =>
    cases w with
    | nil => simp at hw
    | cons t w =>
      rw [List.map_cons, List.map_cons] at hw
      obtain ⟨h1, h2⟩ := List.cons.inj hw
      have hr0 : r ≠ 0 := by rintro rfl; simp at h0
      have hr := hlt r (by simp)
      have ih := ih (fun x hx => hlt x (by simp [hx])) (fun h => h0 (by simp [h])) h2
      by_cases hp : Parentless I r
      · rcases ih with ⟨i1, i2⟩ | ⟨i1, i2⟩
        · left
          refine ⟨by simpa using ⟨hp, i1⟩, ?_⟩
          rw [List.mapM_cons, readFactor_op hN hA hr0 hr hp h1, i2]
          rfl
        · right
          refine ⟨fun h => i1 fun x hx => h x (by simp [hx]), ?_⟩
          rw [List.mapM_cons, readFactor_op hN hA hr0 hr hp h1, i2]
          rfl
      · right
        refine ⟨fun h => hp (h r (by simp)), ?_⟩
        rw [List.mapM_cons, readFactor_do hN hA hr0 hr hp h1]
        rfl

theorem flatten_singletons (m : List Nat) : (m.map fun x => [x]).flatten = m := by
  induction m with
  | nil => rfl
  | cons x m ih => rw [List.map_cons, List.flatten_cons, ih]; rfl

/-- One column. -/
theorem readExpr_column (hN : NamesOk I names) {ch : Choice} (hA : AtomTable I names ch atoms) {m : List Nat} (hlt : ∀ x ∈ m, x < nOps I) (h0 : 0 ∉ m) :
    (∀ x ∈ m, Parentless I x) ∧ readExpr I names atoms order ((m.map (symbolOf I names)).foldl times (.prod [])) = some m ∨
    (¬ ∀ x ∈ m, Parentless I x) ∧ readExpr I names atoms order ((m.map (symbolOf I names)).foldl times (.prod [])) = none := by
  obtain ⟨w, l, hw, e, hl, hnil⟩ := expr_of hN hlt h0
  rw [e]
  unfold readExpr
  by_cases hm : m = []
  · left
    rw [hnil.2 hm, hm]
    exact ⟨by simp, rfl⟩
  · have : l.isEmpty = false := by simpa using fun h => hm (hnil.1 h)
    simp only [this, hl]
    rcases readFactors (order := order) hN hA hlt h0 hw with ⟨h1, h2⟩ | ⟨h1, h2⟩
    · left
      refine ⟨h1, ?_⟩
      simp [h2, flatten_singletons]
    · right
      refine ⟨h1, ?_⟩
      simp [h2]

theorem readList_exprs {es : List Expr} (hne : es ≠ []) (hz : ∀ e ∈ es, e ≠ .zero) :
    readList I names atoms order (es.map Cell.expr) = (es.map Cell.expr).mapM (readSymbol I names atoms order) := by
  cases es with
  | nil => exact absurd rfl hne
  | cons e es =>
    cases e with
    | zero => exact absurd rfl (hz .zero (by simp))
    | prod l => rfl

theorem symbolic_nonzero (hN : NamesOk I names) {cols : List (List Nat)} (hc : Letters I cols) : ∀ e ∈ symbolic I names cols, e ≠ .zero := by
  intro e he
  obtain ⟨m, hm, rfl⟩ := List.mem_map.1 he
  obtain ⟨w, l, -, e, -⟩ := expr_of hN (hc.lt m hm) (hc.nonzero m hm)
  rw [e]
  simp

open Classical in
/-- **C71**: the list of SymPy expressions which `build_columns(..., symbolic=True)` returns is read as the generating set it was made from if no operator of a party with observed parents
occurs, and otherwise it is not read at all. -/
theorem C71_symbolic_columns (hN : NamesOk I names) {ch : Choice} (hA : AtomTable I names ch atoms) {cols : List (List Nat)} (hc : Letters I cols) (hne : cols ≠ []) :
    readList I names atoms order ((symbolic I names cols).map .expr) = if ∀ m ∈ cols, ∀ x ∈ m, Parentless I x then some cols else none := by
  rw [readList_exprs (by simpa [symbolic] using hne) (symbolic_nonzero hN hc)]
  have hlt := hc.lt
  have h0 := hc.nonzero
  clear hc hne
  induction cols with
  | nil => simp [symbolic]
  | cons m cols ih =>
    have ih := ih (fun m hm => hlt m (by simp [hm])) (fun m hm => h0 m (by simp [hm]))
    have e : (symbolic I names (m :: cols)).map Cell.expr = .expr ((m.map (symbolOf I names)).foldl times (.prod [])) :: (symbolic I names cols).map Cell.expr := rfl
    rw [e, List.mapM_cons, ih]
    have e2 : ∀ x, readSymbol I names atoms order (.expr x) = readExpr I names atoms order x := fun _ => rfl
    rw [e2]
    rcases readExpr_column (order := order) hN hA (hlt m (by simp)) (h0 m (by simp)) with ⟨h1, h2⟩ | ⟨h1, h2⟩
    · rw [h2]
      by_cases hcols : ∀ m ∈ cols, ∀ x ∈ m, Parentless I x
      · rw [if_pos hcols, if_pos (by simpa using ⟨h1, hcols⟩)]
        rfl
      · rw [if_neg hcols, if_neg (fun h => hcols fun m hm => h m (by simp [hm]))]
        rfl
    · have hn : ¬ ∀ m' ∈ m :: cols, ∀ x ∈ m', Parentless I x := fun h => h1 (h m (by simp))
      rw [h2, if_neg hn]
      rfl

/-- **C71, networks**: the expressions are read as the generating set. -/
theorem C71_symbolic_round_trip_partial (hN : NamesOk I names) {ch : Choice} (hA : AtomTable I names ch atoms) (hnet : I.isNetwork = true) {cols : List (List Nat)} (hc : Letters I cols)
    (hne : cols ≠ []) : readList I names atoms order ((symbolic I names cols).map .expr) = some cols := by
  rw [C71_symbolic_columns hN hA hc hne, if_pos]
  intro m _ x _ op _
  exact EndToEnd.network_parents hnet _

/-- Different columns are different expressions. -/
theorem C71_expressions_differ (hN : NamesOk I names) {m m' : List Nat} (hm : ∀ x ∈ m, x < nOps I ∧ x ≠ 0) (hm' : ∀ x ∈ m', x < nOps I ∧ x ≠ 0)
    (h : symbolic I names [m] = symbolic I names [m']) : m = m' := by
  have h0 : ∀ l : List Nat, (∀ x ∈ l, x < nOps I ∧ x ≠ 0) → 0 ∉ l := fun l hl h => (hl 0 h).2 rfl
  obtain ⟨w, l, hw, e, hl, -⟩ := expr_of hN (fun x hx => (hm x hx).1) (h0 m hm)
  obtain ⟨w', l', hw', e', hl', -⟩ := expr_of hN (fun x hx => (hm' x hx).1) (h0 m' hm')
  unfold symbolic at h
  rw [List.map_cons, List.map_cons, e, e', List.map_nil] at h
  have hll : l = l' := by simpa using h
  have hww : w = w' := by rw [← hl, ← hl', hll]
  rw [← hww, ← hw] at hw'
  clear h hw hll hww hl hl' e e'
  induction m generalizing m' with
  | nil => simpa using hw'
  | cons r m ih =>
    cases m' with
    | nil => simp at hw'
    | cons r' m' =>
      rw [List.map_cons, List.map_cons] at hw'
      obtain ⟨h1, h2⟩ := List.cons.inj hw'
      rw [ih (fun x hx => hm x (by simp [hx])) (fun x hx => hm' x (by simp [hx])) h2]
      obtain ⟨op, t, a1, a2, a3, a4⟩ := symbolOf_some hN (hm r (by simp)).2 (hm r (by simp)).1
      obtain ⟨op', t', b1, b2, b3, b4⟩ := symbolOf_some hN (hm' r' (by simp)).2 (hm' r' (by simp)).1
      have ht : t = t' := by
        rw [a4, b4] at h1
        exact (Option.some.inj h1).symm
      have hop := C40_display_names_distinct hN.fits (hN.avoids _ (by decide)) op op' a2 b2 (by rw [a3, b3, ht])
      have hrr : r - 1 = r' - 1 := by
        obtain ⟨l1, e1⟩ := List.getElem?_eq_some_iff.1 a1
        obtain ⟨l2, e2⟩ := List.getElem?_eq_some_iff.1 b1
        exact (lexorder_nodup I.scenario).getElem_inj_iff.1 (e1.trans (hop.trans e2.symm))
      have := (hm r (by simp)).2
      have := (hm' r' (by simp)).2
      rw [show r = r' by omega]

/-- **C71, the zero operator**: a column that contains it is written as `0`, which is not read. -/
theorem C71_zero_is_not_read {cols : List (List Nat)} (h : ∃ m ∈ cols, 0 ∈ m) : readList I names atoms order ((symbolic I names cols).map .expr) = none := by
  have hz : ∃ e ∈ symbolic I names cols, e = .zero := by
    obtain ⟨m, hm, h0⟩ := h
    refine ⟨_, List.mem_map.2 ⟨m, hm, rfl⟩, foldl_none (List.mem_map.2 ⟨0, h0, by simp [symbolOf]⟩) _⟩
  generalize symbolic I names cols = es at hz
  have hm : ∀ es : List Expr, (∃ e ∈ es, e = .zero) → (es.map Cell.expr).mapM (readSymbol I names atoms order) = none := by
    intro es hz
    induction es with
    | nil => obtain ⟨_, h, -⟩ := hz; simp at h
    | cons e es ih =>
      rw [List.map_cons, List.mapM_cons]
      by_cases he : e = .zero
      · rw [he]; rfl
      · have hz : ∃ e ∈ es, e = .zero := by
          obtain ⟨e', h, rfl⟩ := hz
          rcases List.mem_cons.1 h with h | h
          · exact absurd h.symm he
          · exact ⟨_, h, rfl⟩
        rw [ih hz]
        cases readSymbol I names atoms order (.expr e) <;> rfl
  cases es with
  | nil => rfl
  | cons e es =>
    cases e with
    | zero => rfl
    | prod l => exact hm _ hz

/-! ### Arrays -/

/-- **C71, one-dimensional arrays**: at least two are taken as they are. -/
theorem C71_words (m m' : List Nat) (cols : List (List Nat)) : readList I names atoms order ((m :: m' :: cols).map .ranks) = some (m :: m' :: cols) := by
  have : ∀ l : List (List Nat), (l.map Cell.ranks).mapM readRanks = some l := by
    intro l
    induction l with
    | nil => rfl
    | cons a l ih => rw [List.map_cons, List.mapM_cons, ih]; rfl
  exact this (m :: m' :: cols)

theorem ranksOf_array {m : List Nat} (hlt : ∀ x ∈ m, x < nOps I) : Optimum.ranksOf I (m.filterMap fun r => I.scenario.sdpLexorder[r]?) = some m := by
  unfold Optimum.ranksOf
  induction m with
  | nil => rfl
  | cons r m ih =>
    have ih := ih fun x hx => hlt x (by simp [hx])
    have hone : ∃ op, I.scenario.sdpLexorder[r]? = some op ∧ I.scenario.sdpLexorder.idxOf? (wrapOp I.scenario op) = some r := by
      by_cases h0 : r = 0
      · subst h0
        refine ⟨zeroOp I.scenario.nSources, rfl, ?_⟩
        have : wrapOp I.scenario (zeroOp I.scenario.nSources) = zeroOp I.scenario.nSources := by simp [wrapOp, zeroOp]
        rw [this]
        unfold Scenario.sdpLexorder
        rw [List.idxOf?_cons, if_pos (by simp)]
      · obtain ⟨op, hop, hv, hs⟩ := operator_of h0 (hlt r (by simp))
        refine ⟨op, hs, ?_⟩
        rw [wrapOp_valid hv, Optimum.idxOf_sdp hv]
        unfold Theory.sdpRank
        obtain ⟨hl, e⟩ := List.getElem?_eq_some_iff.1 hop
        rw [← e, List.Nodup.idxOf_getElem (lexorder_nodup _)]
        congr 1
        omega
    obtain ⟨op, h1, h2⟩ := hone
    rw [List.filterMap_cons, h1]
    simp only [List.map_cons, List.mapM_cons, h2, ih]
    rfl

/-- **C71, two-dimensional arrays**: the arrays of the columns of a generating set with at least two columns are read as the generating set. -/
theorem C71_arrays {cols : List (List Nat)} (hlt : ∀ m ∈ cols, ∀ x ∈ m, x < nOps I) (hlen : 2 ≤ cols.length) :
    readList I names atoms order ((arrays I cols).map .rows) = some cols := by
  have hm : ∀ l : List (List Nat), (∀ m ∈ l, ∀ x ∈ m, x < nOps I) → ((arrays I l).map Cell.rows).mapM (readRows I) = some l := by
    intro l hl
    induction l with
    | nil => rfl
    | cons a l ih =>
      have e : (arrays I (a :: l)).map Cell.rows = .rows (a.filterMap fun r => I.scenario.sdpLexorder[r]?) :: (arrays I l).map Cell.rows := rfl
      have e2 : readRows I (.rows (a.filterMap fun r => I.scenario.sdpLexorder[r]?)) = some a := ranksOf_array (hl a (by simp))
      rw [e, List.mapM_cons, e2, ih fun m h => hl m (by simp [h])]
      rfl
  match cols, hlen with
  | m :: m' :: cols, _ => exact hm _ hlt

/-- **C71, a single array** is not read (`IndexError`): the second entry of the list is inspected. -/
theorem C71_single_array (ops : List Op) (w : List Nat) : readList I names atoms order [.rows ops] = none ∧ readList I names atoms order [.ranks w] = none := ⟨rfl, rfl⟩

/-- **C71, blocks**: a list of blocks of parties is the generating set of C43. -/
theorem C71_blocks {specs : List (List Nat)} (hne : specs ≠ []) : readList I names atoms order (specs.map .block) = some (specCols I specs) := by
  have : ∀ l : List (List Nat), (l.map Cell.block).mapM readBlock = some l := by
    intro l
    induction l with
    | nil => rfl
    | cons a l ih => rw [List.map_cons, List.mapM_cons, ih]; rfl
  cases specs with
  | nil => exact absurd rfl hne
  | cons b specs =>
    have h := this (b :: specs)
    show (((b :: specs).map Cell.block).mapM readBlock).map (specCols I) = _
    rw [h]
    rfl

/-! ### The generating sets made from blocks -/

theorem letters_specCols (specs : List (List Nat)) : Letters I (specCols I specs) := by
  have hf : ∀ m ∈ specCols I specs, ∀ x ∈ m, 0 < x ∧ x < nOps I := by
    intro m hm x hx
    obtain ⟨b, -, hb⟩ := Columns.mem_cols.1 hm
    exact (Columns.ops_ok I.scenario (cardinalities I)).lt _ x
      ((Columns.fromBlock_sound (scenario_operatorList I.scenario I.D.tbl I.anyNonclassical) commuting_none (Columns.ops_ok I.scenario (cardinalities I)) hb).2.2.2.2 x hx)
  exact ⟨fun m hm x hx => (hf m hm x hx).2, fun m hm h => absurd (hf m hm 0 h).1 (by omega)⟩

/-- **C71, the sets of blocks and the NPA and local levels**: what is returned as expressions for a network is read as the same generating set. -/
theorem C71_levels_partial (hN : NamesOk I names) {ch : Choice} (hA : AtomTable I names ch atoms) (hnet : I.isNetwork = true) {specs : List (List Nat)} (h : [] ∈ specs) :
    readList I names atoms order ((symbolic I names (specCols I specs)).map .expr) = some (specCols I specs) := by
  apply C71_symbolic_round_trip_partial hN hA hnet (letters_specCols specs)
  intro e
  have : ([] : List Nat) ∈ specCols I specs := Columns.mem_cols.2 ⟨[], h, .inl ⟨rfl, rfl⟩⟩
  rw [e] at this
  simp at this

/-- **C71, the number 1** as a column is the identity; the other columns are read as they are without it. No other number is accepted. -/
theorem C71_numbers {cols : List (List Nat)} (hc : Letters I cols) (hN : NamesOk I names) (hne : cols ≠ []) (n : Int) :
    readList I names atoms order (.number n :: (symbolic I names cols).map .expr) =
      if n = 1 then (readList I names atoms order ((symbolic I names cols).map .expr)).map ([] :: ·) else none := by
  rw [readList_exprs (by simpa [symbolic] using hne) (symbolic_nonzero hN hc)]
  show (Cell.number n :: (symbolic I names cols).map .expr).mapM (readSymbol I names atoms order) = _
  rw [List.mapM_cons]
  have e : readSymbol I names atoms order (.number n) = if n = 1 then some [] else none := rfl
  have e2 : ∀ es : List Expr, (es.map Cell.expr).mapM (readSymbol I names atoms order) = es.mapM (readExpr I names atoms order) := by
    intro es
    induction es with
    | nil => rfl
    | cons a es ih => rw [List.map_cons, List.mapM_cons, ih, List.mapM_cons]; rfl
  rw [e]
  by_cases h : n = 1
  · rw [if_pos h, if_pos h, e2]
    cases (symbolic I names cols).mapM (readExpr I names atoms order) <;> rfl
  · rw [if_neg h, if_neg h]
    rfl

/-- **C71, names of atoms**: a factor that is the name of an atomic moment stands for the operators of the atom. -/
theorem C71_named_atom {t : Str} {rows : List Op} (h : atoms t = some rows) (hv : ∀ x ∈ rows, Valid I.scenario x) :
    readList I names atoms order [.expr (.prod [(t, 1)])] = some [rows.map (Theory.sdpRank I)] := by
  have e : readFactor I names atoms order t = some (rows.map (Theory.sdpRank I)) := by
    unfold readFactor
    rw [h]
    exact Optimum.ranksOf_valid hv
  have e3 : readExpr I names atoms order (.prod [(t, 1)]) = some (rows.map (Theory.sdpRank I)) := by
    show (([t].mapM (readFactor I names atoms order)).map List.flatten) = _
    rw [List.mapM_cons, e]
    simp
  show [Cell.expr (.prod [(t, 1)])].mapM (readSymbol I names atoms order) = _
  have e4 : readSymbol I names atoms order (.expr (.prod [(t, 1)])) = some (rows.map (Theory.sdpRank I)) := e3
  rw [List.mapM_cons, e4]
  rfl

end Verif.Symbolic

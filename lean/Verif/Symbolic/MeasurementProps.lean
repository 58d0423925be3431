import Verif.Symbolic.Measurements
import Verif.Symbolic.Witness
/-!
C72: `InflationSDP.measurements`: the symbols are the operators which occur in generating sets, and products of them are read as the products of the operators.
-/
namespace Verif.Symbolic
open Verif.Common Verif.Canon Verif.Scenario Verif.Moment Verif.SdpEnd Verif.SdpNames Verif.Text Verif.Names Verif.Generate Verif.SdpRepr
open Verif.State (Dict)
open Verif.EndToEnd (Input instr)
open Verif.Sanitise (naming NamesOk)
open Verif.Theory (bell)

variable {I : Input} {names : List Str} {atoms : Str → Option (List Op)} {order : List Str}

/-! ### Specification -/

/-- Every source of the problem has at least one copy. -/
def Copied (I : Input) : Prop := ∀ s < I.scenario.nSources, 1 ≤ I.scenario.level s

/-- `t` is one of the symbols of the operator of rank `r`: `measurements[p][c][x][o]`, where `c` counts the copies of the sources of the party in the order of the operators. -/
def MeasurementOf (I : Input) (names : List Str) (r : Nat) (t : Str) : Prop :=
  ∃ p c x o copies, measurement I names p c x o = some t ∧ (I.scenario.inflationIndices p)[c]? = some copies ∧ I.scenario.sdpLexorder[r]? = some ⟨p + 1, copies, x, o⟩ ∧ r ≠ 0

/-- The operator of rank `r` is not that of the last outcome, which the program leaves out. -/
def Listed (I : Input) (r : Nat) : Prop := ∃ op, I.scenario.sdpLexorder[r]? = some op ∧ r ≠ 0 ∧ op.outcome + 1 ≠ cardinalities I (op.party - 1)

/-! ### Lemmas -/

theorem copies_or_empty (p : Nat) : allIndices I.scenario p = I.scenario.inflationIndices p ∨ allIndices I.scenario p = [] := by
  by_cases h : ∀ s < I.scenario.nSources, I.scenario.hyp s p = true → 1 ≤ I.scenario.level s
  · exact .inl ((allIndices_eq I.scenario p).1 h)
  · push Not at h
    obtain ⟨s, hs, h1, h2⟩ := h
    exact .inr ((allIndices_eq I.scenario p).2 ⟨s, hs, h1, by omega⟩)

theorem measurement_iff {p c x o : Nat} {t : Str} : measurement I names p c x o = some t ↔ p < I.scenario.nParties ∧ x < I.scenario.settings p ∧ o < cardinalities I p - 1 ∧
    ∃ copies, (allIndices I.scenario p)[c]? = some copies ∧ t = measurementName (names.getD p []) copies x o := by
  unfold measurement measurementSymbols
  by_cases hp : p < I.scenario.nParties
  · rw [List.getElem?_map, List.getElem?_range hp, Option.map_some, Option.bind_some, List.getElem?_map]
    rcases hc : (allIndices I.scenario p)[c]? with _ | copies
    · simp
    · simp only [Option.map_some, Option.bind_some, List.getElem?_map]
      by_cases hx : x < I.scenario.settings p
      · rw [List.getElem?_range hx]
        simp only [Option.map_some, Option.bind_some, List.getElem?_map]
        by_cases ho : o < cardinalities I p - 1
        · rw [List.getElem?_range ho]
          simp only [Option.map_some, Option.some.injEq, hp, hx, ho, true_and, exists_eq_left']
          exact eq_comm
        · rw [List.getElem?_eq_none (by simpa using ho)]
          simp [ho]
      · rw [List.getElem?_eq_none (l := List.range (I.scenario.settings p)) (by simpa using hx)]
        simp [hx]
  · rw [List.getElem?_map, List.getElem?_eq_none (by simpa using hp)]
    simp [hp]

/-- The operator of a symbol. -/
theorem measurement_valid {p c x o : Nat} {t : Str} (h : measurement I names p c x o = some t) :
    ∃ copies, (I.scenario.inflationIndices p)[c]? = some copies ∧ Valid I.scenario ⟨p + 1, copies, x, o⟩ ∧ t = measurementName (names.getD p []) copies x o := by
  obtain ⟨hp, hx, ho, copies, hc, ht⟩ := measurement_iff.1 h
  rcases copies_or_empty (I := I) p with e | e
  · rw [e] at hc
    have hm := (mem_inflationIndices I.scenario).1 (List.mem_of_getElem? hc)
    refine ⟨copies, hc, ⟨by simp, by show p + 1 ≤ _; omega, hm.1, hm.2, hx, ?_⟩, ht⟩
    show o < I.outcomes.getD p 0
    unfold cardinalities at ho
    split at ho <;> omega
  · rw [e] at hc
    simp at hc

/-! ### The properties -/

/-- **C72, what the entries are**: `measurements[p][c][x][o]` is read, in a generating set, as the operator of party `p`, with the `c`-th copies of its sources, setting `x` and
outcome `o`. -/
theorem C72_measurement_operators (hN : NamesOk I names) {ch : Choice} (hA : AtomTable I names ch atoms) {p c x o : Nat} {t : Str} (h : measurement I names p c x o = some t) :
    ∃ copies r, (I.scenario.inflationIndices p)[c]? = some copies ∧ I.scenario.sdpLexorder[r]? = some ⟨p + 1, copies, x, o⟩ ∧ r ≠ 0 ∧ readFactor I names atoms order t = some [r] := by
  obtain ⟨copies, hc, hv, rfl⟩ := measurement_valid h
  obtain ⟨k, hk⟩ := List.getElem?_of_mem ((mem_lexorder _).2 hv)
  refine ⟨copies, k + 1, hc, ?_, by omega, readFactor_measurement hN hA hk⟩
  unfold Scenario.sdpLexorder
  rw [List.getElem?_cons_succ]
  exact hk

/-- **C72, the shape**: the entries with indices in range exist. -/
theorem C72_shape (hL : Copied I) (p c x o : Nat) : (measurement I names p c x o).isSome ↔
    p < I.scenario.nParties ∧ c < (I.scenario.inflationIndices p).length ∧ x < I.scenario.settings p ∧ o + 1 < cardinalities I p := by
  have e := (allIndices_eq I.scenario p).1 fun s hs _ => hL s hs
  constructor
  · intro h
    obtain ⟨t, ht⟩ := Option.isSome_iff_exists.1 h
    obtain ⟨hp, hx, ho, copies, hc, -⟩ := measurement_iff.1 ht
    rw [e] at hc
    exact ⟨hp, (List.getElem?_eq_some_iff.1 hc).1, hx, by omega⟩
  · rintro ⟨hp, hc, hx, ho⟩
    rw [Option.isSome_iff_exists]
    exact ⟨_, measurement_iff.2 ⟨hp, hx, by omega, _, by rw [e]; exact List.getElem?_eq_getElem hc, rfl⟩⟩

/-- **C72, different entries are different symbols.** -/
theorem C72_symbols_distinct (hN : NamesOk I names) {p c x o p' c' x' o' : Nat} {t : Str} (h : measurement I names p c x o = some t) (h' : measurement I names p' c' x' o' = some t) :
    p = p' ∧ c = c' ∧ x = x' ∧ o = o' := by
  obtain ⟨copies, hc, hv, ht⟩ := measurement_valid h
  obtain ⟨copies', hc', hv', ht'⟩ := measurement_valid h'
  have e := (C40_legacy_names_distinct hN.fits (hN.avoids _ (by decide)) _ _ hv hv').2 (by
    rw [measurementName_legacy hN hv, measurementName_legacy hN hv']
    exact congrArg some (ht.symm.trans ht'))
  simp only [Op.mk.injEq, Nat.add_right_cancel_iff] at e
  obtain ⟨rfl, rfl, rfl, rfl⟩ := e
  refine ⟨rfl, ?_, rfl, rfl⟩
  obtain ⟨hl, e1⟩ := List.getElem?_eq_some_iff.1 hc
  obtain ⟨hl', e2⟩ := List.getElem?_eq_some_iff.1 hc'
  exact (List.Nodup.getElem_inj_iff (nodup_inflationIndices _ _)).1 (e1.trans e2.symm)

/-- **C72, every operator is an entry**: the operators that occur in generating sets (all but those of the last outcomes) are the operators of the entries. -/
theorem C72_every_operator (hL : Copied I) (r : Nat) : Listed I r ↔ ∃ t, MeasurementOf I names r t := by
  constructor
  · rintro ⟨op, hop, h0, ho⟩
    obtain ⟨k, rfl⟩ : ∃ k, r = k + 1 := ⟨r - 1, by omega⟩
    have hk : I.scenario.lexorder[k]? = some op := by
      unfold Scenario.sdpLexorder at hop
      rwa [List.getElem?_cons_succ] at hop
    have hv := (mem_lexorder I.scenario).1 (List.mem_of_getElem? hk)
    have hi : op.copies ∈ I.scenario.inflationIndices (op.party - 1) := (mem_inflationIndices I.scenario).2 ⟨hv.copies_len, hv.copies_ok⟩
    obtain ⟨c, hc⟩ := List.getElem?_of_mem hi
    have hout : op.outcome < I.outcomes.getD (op.party - 1) 0 := hv.outcome_lt
    have h1 := hv.party_pos
    have h2 := hv.party_le
    have hs : (measurement I names (op.party - 1) c op.setting op.outcome).isSome := by
      rw [C72_shape hL]
      refine ⟨by omega, (List.getElem?_eq_some_iff.1 hc).1, hv.setting_lt, ?_⟩
      unfold cardinalities at ho ⊢
      split at ho <;> split <;> simp_all <;> omega
    obtain ⟨t, ht⟩ := Option.isSome_iff_exists.1 hs
    refine ⟨t, _, c, _, _, _, ht, hc, ?_, h0⟩
    rw [hop]
    have : op.party - 1 + 1 = op.party := by omega
    rw [this]
  · rintro ⟨t, p, c, x, o, copies, ht, hc, hop, h0⟩
    refine ⟨_, hop, h0, ?_⟩
    obtain ⟨-, -, ho, -⟩ := measurement_iff.1 ht
    show o + 1 ≠ cardinalities I (p + 1 - 1)
    rw [Nat.add_sub_cancel]
    omega

/-- A symbol of an operator is read as the operator. -/
theorem read_measurementOf (hN : NamesOk I names) {ch : Choice} (hA : AtomTable I names ch atoms) {r : Nat} {t : Str} (h : MeasurementOf I names r t) :
    readFactor I names atoms order t = some [r] := by
  obtain ⟨p, c, x, o, copies, ht, hc, hop, h0⟩ := h
  obtain ⟨copies', r', hc', hop', h0', hread⟩ := C72_measurement_operators (order := order) hN hA ht
  obtain rfl := Option.some.inj (hc.symm.trans hc')
  rw [hread]
  obtain ⟨k, rfl⟩ : ∃ k, r = k + 1 := ⟨r - 1, by omega⟩
  obtain ⟨k', rfl⟩ : ∃ k', r' = k' + 1 := ⟨r' - 1, by omega⟩
  unfold Scenario.sdpLexorder at hop hop'
  rw [List.getElem?_cons_succ] at hop hop'
  obtain ⟨hl, e⟩ := List.getElem?_eq_some_iff.1 hop
  obtain ⟨hl', e'⟩ := List.getElem?_eq_some_iff.1 hop'
  have := (List.Nodup.getElem_inj_iff (lexorder_nodup I.scenario)).1 (e'.trans e.symm)
  rw [this]

/-- **C72, products**: a product of symbols, with powers or not, is read as the product of the operators in the same order. -/
theorem C72_products (hN : NamesOk I names) {ch : Choice} (hA : AtomTable I names ch atoms) {w : List Nat} {ts : List Str} (h : List.Forall₂ (MeasurementOf I names) w ts) :
    readExpr I names atoms order (productOf ts) = some w := by
  obtain ⟨l, h1, h2, h3⟩ := foldl_symbols ts []
  unfold productOf
  rw [h1]
  unfold readExpr
  dsimp only
  by_cases hl : l = []
  · obtain ⟨-, rfl⟩ := h3.1 hl
    rw [List.forall₂_nil_right_iff.1 h, hl]
    rfl
  · have hf : flatten l = ts := by simpa [flatten] using h2
    rw [if_neg (by simpa using hl), hf]
    have : ts.mapM (readFactor I names atoms order) = some (w.map fun x => [x]) := by
      clear h1 h2 h3 hf hl
      induction h with
      | nil => rfl
      | cons hr hrest ih =>
        rw [List.mapM_cons, read_measurementOf hN hA hr, ih]
        rfl
    rw [this]
    simp [flatten_singletons]

/-- **C72, generating sets**: a list of products of entries of `measurements` is read as the list of the products of the operators; also for problems that are not networks. -/
theorem C72_generating_sets (hN : NamesOk I names) {ch : Choice} (hA : AtomTable I names ch atoms) {cols : List (List Nat)} {ps : List (List Str)} (hne : cols ≠ [])
    (h : List.Forall₂ (List.Forall₂ (MeasurementOf I names)) cols ps) : readList I names atoms order (ps.map fun ts => .expr (productOf ts)) = some cols := by
  have hz : ∀ e ∈ ps.map productOf, e ≠ .zero := by
    intro e he
    obtain ⟨ts, -, rfl⟩ := List.mem_map.1 he
    obtain ⟨l, h1, -⟩ := foldl_symbols ts []
    unfold productOf
    rw [h1]
    simp
  have hp : ps.map productOf ≠ [] := by
    rintro e
    have := List.forall₂_iff_get.1 h
    apply hne
    apply List.eq_nil_of_length_eq_zero
    rw [this.1]
    simpa using e
  have := readList_exprs (I := I) (names := names) (atoms := atoms) (order := order) hp hz
  rw [List.map_map] at this
  refine Eq.trans ?_ (this.trans ?_)
  · rfl
  · clear hz hp this hne
    induction h with
    | nil => rfl
    | cons hc hrest ih =>
      rw [List.map_cons, List.mapM_cons, ih]
      show (readExpr I names atoms order (productOf _) >>= _) = _
      rw [C72_products hN hA hc]
      rfl

/-- The letters of the sets of blocks are not last outcomes. -/
theorem listed_specCols {specs : List (List Nat)} {m : List Nat} (hm : m ∈ specCols I specs) {x : Nat} (hx : x ∈ m) : Listed I x := by
  obtain ⟨b, -, hb⟩ := Columns.mem_cols.1 hm
  have h := (Columns.fromBlock_sound (scenario_operatorList I.scenario I.D.tbl I.anyNonclassical) commuting_none (Columns.ops_ok I.scenario (cardinalities I)) hb).2.2.2.2 x hx
  have hl := ((Columns.ops_ok I.scenario (cardinalities I)).lt _ x h).1
  obtain ⟨o, h1, h2, h3⟩ := (Columns.mem_measOps I.scenario (cardinalities I)).1 h
  refine ⟨o, h1, by omega, ?_⟩
  rw [h2, Nat.add_sub_cancel]
  exact h3

/-- **C72, the sets of blocks, the NPA and the local levels**: every such generating set can be written with products of entries of `measurements`, and every way to do so is read as this
set. -/
theorem C72_levels (hN : NamesOk I names) (hL : Copied I) {ch : Choice} (hA : AtomTable I names ch atoms) {specs : List (List Nat)} (h : [] ∈ specs) :
    (∃ ps, List.Forall₂ (List.Forall₂ (MeasurementOf I names)) (specCols I specs) ps) ∧
    ∀ ps, List.Forall₂ (List.Forall₂ (MeasurementOf I names)) (specCols I specs) ps → readList I names atoms order (ps.map fun ts => .expr (productOf ts)) = some (specCols I specs) := by
  constructor
  · have hw : ∀ m ∈ specCols I specs, ∃ ts, List.Forall₂ (MeasurementOf I names) m ts := by
      intro m hm
      have hx : ∀ x ∈ m, ∃ t, MeasurementOf I names x t := fun x hx => (C72_every_operator hL x).1 (listed_specCols hm hx)
      clear hm
      induction m with
      | nil => exact ⟨[], .nil⟩
      | cons x m ih =>
        obtain ⟨ts, hts⟩ := ih fun y hy => hx y (by simp [hy])
        obtain ⟨t, ht⟩ := hx x (by simp)
        exact ⟨t :: ts, .cons ht hts⟩
    generalize specCols I specs = cols at hw
    induction cols with
    | nil => exact ⟨[], .nil⟩
    | cons m cols ih =>
      obtain ⟨ps, hps⟩ := ih fun y hy => hw y (by simp [hy])
      obtain ⟨ts, hts⟩ := hw m (by simp)
      exact ⟨ts :: ps, .cons hts hps⟩
  · intro ps hps
    apply C72_generating_sets hN hA _ hps
    intro e
    have : ([] : List Nat) ∈ specCols I specs := Columns.mem_cols.2 ⟨[], h, .inl ⟨rfl, rfl⟩⟩
    rw [e] at this
    simp at this

/-! ### Witnesses -/

theorem bell_copied : Copied bell := by unfold Copied; decide +kernel

theorem instr_copied : Copied instr := by unfold Copied; decide +kernel

/-- The entries for the Bell scenario. -/
example : measurementSymbols bell bellNames = [[[["A_1_0_0".toList], ["A_1_1_0".toList]]], [[["B_1_0_0".toList], ["B_1_1_0".toList]]]] := by decide +kernel

/-- The product of the entries for `A₀A₀B₁` is read as this operator. -/
example : readExpr bell bellNames (fun t => if t = "P[A_0=0 B_0=0]".toList then some [⟨1, [1], 0, 0⟩, ⟨2, [1], 0, 0⟩] else none) toKill
      (productOf ["A_1_0_0".toList, "A_1_0_0".toList, "B_1_1_0".toList]) = some [1, 1, 7] := by
  refine C72_products (by decide) bell_atoms (.cons ⟨0, 0, 0, 0, [1], ?_⟩ (.cons ⟨0, 0, 0, 0, [1], ?_⟩ (.cons ⟨1, 0, 1, 0, [1], ?_⟩ .nil))) <;> decide +kernel

/-- With observed parents, where the expressions of `build_columns` are refused (`C71_false_with_observed_parents`), these are read. -/
example : ∃ ps, List.Forall₂ (List.Forall₂ (MeasurementOf instr instrNames)) (specCols instr (Columns.npaSpecs instr.scenario.nParties 1 0)) ps ∧
    readList instr instrNames (fun _ => none) toKill (ps.map fun ts => .expr (productOf ts)) = some (specCols instr (Columns.npaSpecs instr.scenario.nParties 1 0)) := by
  have h := C72_levels (order := toKill) (specs := Columns.npaSpecs instr.scenario.nParties 1 0) (by decide : NamesOk instr instrNames) instr_copied (no_atoms instr instrNames (freshChoice instr)) ?_
  · obtain ⟨⟨ps, hps⟩, h⟩ := h
    exact ⟨ps, hps, h ps hps⟩
  · decide +kernel

end Verif.Symbolic

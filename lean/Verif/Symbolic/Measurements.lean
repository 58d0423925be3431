import Verif.Symbolic.Props
/-!
C72: `InflationSDP.measurements`, the operators with which users write generating sets.
-/
namespace Verif.Symbolic
open Verif.Common Verif.Canon Verif.Scenario Verif.Moment Verif.SdpEnd Verif.SdpNames Verif.Text Verif.Names Verif.Generate Verif.SdpRepr
open Verif.State (Dict)
open Verif.EndToEnd (Input)
open Verif.Sanitise (naming NamesOk)
open Verif.Columns (product)
variable {I : Input} {names : List Str} {atoms : Str → Option (List Op)} {order : List Str}


/-! ### The model -/

/-- The copies of the sources of a party with `0` for the other sources, InflationSDP.py 1926-1938; `active` tells the sources of the party. -/
def fillZeros (active : Nat → Bool) : List Nat → List Nat → List Nat
  | [], _ => []
  | s :: sources, indices => if active s then (indices.headD 0 + 1) :: fillZeros active sources indices.tail else 0 :: fillZeros active sources indices

/-- `all_indices` of a party, InflationSDP.py 1921-1939. -/
def allIndices (S : Scenario) (p : Nat) : List (List Nat) :=
  (product (((List.range S.nSources).filter fun s => S.hyp s p).map fun s => List.range (S.level s))).map (fillZeros (fun s => S.hyp s p) (List.range S.nSources))

/-- The name of a symbol, InflationSDP.py 1945-1948, sdp/quantum_tools.py 391-396. -/
def measurementName (party : Str) (copies : List Nat) (x o : Nat) : Str := party ++ '_' :: joinNat '_' copies ++ '_' :: natStr x ++ '_' :: natStr o

/-- `_generate_parties`, InflationSDP.py 1897-1951, `generate_operators`, sdp/quantum_tools.py 370-399: the names of the symbols `measurements[p][c][x][o]`. -/
def measurementSymbols (I : Input) (names : List Str) : List (List (List (List Str))) :=
  (List.range I.scenario.nParties).map fun p => (allIndices I.scenario p).map fun copies =>
    (List.range (I.scenario.settings p)).map fun x => (List.range (cardinalities I p - 1)).map fun o => measurementName (names.getD p []) copies x o

/-- `self.measurements[p][c][x][o]`; `none` is an `IndexError`. -/
def measurement (I : Input) (names : List Str) (p c x o : Nat) : Option Str :=
  ((((measurementSymbols I names)[p]?).bind fun l => l[c]?).bind fun l => l[x]?).bind fun l => l[o]?

/-- A product of symbols. -/
def productOf (w : List Str) : Expr := (w.map some).foldl times (.prod [])


/-! ### The copies -/

theorem fill_eq (act : Nat → Bool) (lev : Nat → Nat) (l : List Nat) (h : ∀ s ∈ l, act s = true → 1 ≤ lev s) :
    (product ((l.filter act).map fun s => List.range (lev s))).map (fillZeros act l) =
      (ndindex (l.map fun s => max (if act s then lev s else 0) 1)).map fun inc => List.zipWith (· + ·) (l.map fun s => if act s then 1 else 0) inc := by
  induction l with
  | nil => rfl
  | cons s l ih =>
    have ih := ih fun s hs => h s (List.mem_cons_of_mem _ hs)
    by_cases ha : act s = true
    · have hm : max (lev s) 1 = lev s := max_eq_left (h s (by simp) ha)
      rw [List.filter_cons_of_pos ha]
      simp only [List.map_cons, ha, if_true, hm, product, ndindex, List.map_flatMap]
      congr 1
      funext i
      have := congrArg (List.map ((i + 1) :: ·)) ih
      simp only [List.map_map] at this ⊢
      refine (List.map_congr_left ?_).trans (this.trans (List.map_congr_left ?_))
      · intro w _
        simp [fillZeros, ha]
      · intro w _
        simp [Nat.add_comm]
    · rw [List.filter_cons_of_neg ha]
      simp only [List.map_cons, ha, Bool.false_eq_true, if_false, ndindex]
      have := congrArg (List.map (0 :: ·)) ih
      simp only [List.map_map] at this
      have e : List.range (max 0 1) = [0] := rfl
      rw [e]
      simp only [List.flatMap_cons, List.flatMap_nil, List.append_nil, List.map_map]
      refine (List.map_congr_left ?_).trans (this.trans (List.map_congr_left ?_))
      · intro w _
        simp [fillZeros, ha]
      · intro w _
        simp

theorem product_empty {α : Type} {ls : List (List α)} (h : [] ∈ ls) : product ls = [] := by
  rw [List.eq_nil_iff_forall_not_mem]
  intro w hw
  rw [Columns.mem_product] at hw
  obtain ⟨i, hi, e⟩ := List.getElem_of_mem h
  have := (List.forall₂_iff_get.1 hw)
  have h2 := this.2 i (by rw [this.1]; exact hi) hi
  simp only [List.get_eq_getElem, e] at h2
  simp at h2

/-- The copies of a party are those of its operators, in the same order, unless one of its sources has no copies. -/
theorem allIndices_eq (S : Scenario) (p : Nat) :
    ((∀ s < S.nSources, S.hyp s p = true → 1 ≤ S.level s) → allIndices S p = S.inflationIndices p) ∧
    ((∃ s < S.nSources, S.hyp s p = true ∧ S.level s = 0) → allIndices S p = []) := by
  constructor
  · intro h
    refine (fill_eq (fun s => S.hyp s p) S.level (List.range S.nSources) fun s hs => h s (List.mem_range.1 hs)).trans ?_
    unfold Scenario.inflationIndices Scenario.active Scenario.numCopies
    congr 3
    simp
  · rintro ⟨s, hs, ha, h0⟩
    unfold allIndices
    rw [product_empty, List.map_nil]
    refine List.mem_map.2 ⟨s, by simp [hs, ha], by simp [h0]⟩

/-! ### The names -/

/-- The operator with the indices of a symbol. -/
theorem measurementName_legacy (hN : NamesOk I names) {op : Op} (hv : Valid I.scenario op) :
    legacyName0 I.scenario (naming I names) op = some (measurementName (names.getD (op.party - 1) []) op.copies op.setting op.outcome) := by
  obtain ⟨i, u, hi, hI⟩ := interpret_some hN.fits hv
  obtain ⟨-, h2, h3⟩ := old_facts (hN.avoids _ (by decide)) hN.fits hv hI
  unfold legacyName0 legacyName
  rw [hi, Option.map_some, Option.map_some, oldName0_eq h2 h3]
  unfold oldWith measurementName
  rw [hI.party, hI.copies, hI.composite, hI.outcome]
  simp only [List.append_assoc, List.cons_append]
  rfl

/-- Such a name has the party, digits and underscores. -/
theorem mem_measurementName {party : Str} {copies : List Nat} {x o : Nat} {c : Char} (h : c ∈ measurementName party copies x o) : c ∈ party ∨ c = '_' ∨ Digit c := by
  have hdig : ∀ n, c ∈ natStr n → Digit c := fun n hc => natStr_digit n c hc
  unfold measurementName at h
  simp only [List.mem_append, List.mem_cons, List.cons_append, List.append_assoc] at h
  rcases h with h | rfl | h | rfl | h | rfl | h
  · exact .inl h
  · simp
  · exact .inr (joinNat_mem h)
  · simp
  · exact .inr (.inr (hdig _ h))
  · simp
  · exact .inr (.inr (hdig _ h))

/-- Names of atoms contain brackets, except the name of the zero atom. -/
theorem atom_brackets (hN : NamesOk I names) {ch : Choice} {t : Str} {a : Atom} (ha : Plain I a ∨ a = [0]) (h : AtomNamed I names a t ∨ AtomLegacy I names ch a t) :
    '[' ∈ t ∨ '<' ∈ t ∨ '(' ∈ t ∨ t = ['0'] := by
  have hz : legacyText I names [0] = ['0'] := by simp [legacyText, isZero]
  have hl : ∀ b, b ≠ [] → 0 ∉ b → '<' ∈ legacyText I names b ∨ '(' ∈ legacyText I names b := by
    intro b hb h0
    unfold legacyText
    rw [if_neg (by simpa using hb), if_neg (by simpa [isZero] using h0)]
    split
    · right
      unfold rawName
      simp
    · left
      simp
  rcases h with h | h
  · rcases ha with ha | rfl
    · obtain ⟨f, com, rfl, -⟩ := named_form ha h
      obtain ⟨u, e, -⟩ := nameWith_form hN f com ha.nonzero
      rw [e]
      cases com <;> simp
    · cases h with
      | created =>
        right; right; right
        simp [createdText, isZero]
      | adjoint h => simp [allCommuting, notcomm_self] at h
  · cases h with
    | own =>
      rcases ha with ha | rfl
      · rcases hl a ha.ne ha.nonzero with h | h <;> simp [h]
      · simp [hz]
    | original hb h0 e hne => rcases hl _ hb h0 with h | h <;> simp [h]

/-- The symbol of an operator is read as the operator. -/
theorem readFactor_measurement (hN : NamesOk I names) {ch : Choice} (hA : AtomTable I names ch atoms) {k : Nat} {op : Op} (hk : I.scenario.lexorder[k]? = some op) :
    readFactor I names atoms order (measurementName (names.getD (op.party - 1) []) op.copies op.setting op.outcome) = some [k + 1] := by
  have hv : Valid I.scenario op := (mem_lexorder _).1 (List.mem_of_getElem? hk)
  have hp : names.getD (op.party - 1) [] ∈ names := name_mem hN.fits hv
  have hlt : k + 1 < nOps I := by
    obtain ⟨h, -⟩ := List.getElem?_eq_some_iff.1 hk
    unfold nOps
    omega
  obtain ⟨d, e, hget⟩ := (C40_names_read_back hN.fits (hN.avoids _ (by decide)) k op hk _ (.inr (.inr (measurementName_legacy hN hv)))).2
  generalize ht : measurementName (names.getD (op.party - 1) []) op.copies op.setting op.outcome = t at hget ⊢
  have hno : ∀ c ∈ ['[', '<', '(', '|', ' '], c ∉ t := by
    intro c hc h
    rw [← ht] at h
    simp only [List.mem_cons, List.not_mem_nil, or_false] at hc
    rcases mem_measurementName h with h | h | h
    · exact hN.avoid _ hp c (by rcases hc with rfl | rfl | rfl | rfl | rfl <;> decide) h
    · rcases hc with rfl | rfl | rfl | rfl | rfl <;> simp at h
    · rcases hc with rfl | rfl | rfl | rfl | rfl <;> simp [Digit] at h
  have hfree : atoms t = none := by
    rcases ha : atoms t with _ | rows
    · rfl
    exfalso
    obtain ⟨a, h1, h2⟩ := hA t rows ha
    rcases atom_brackets hN h1 h2 with h | h | h | h
    · exact hno _ (by simp) h
    · exact hno _ (by simp) h
    · exact hno _ (by simp) h
    · have h' := congrArg ('_' ∈ ·) h
      rw [← ht] at h'
      simp [measurementName] at h'
  unfold readFactor
  rw [hfree]
  dsimp only
  rw [e, Option.bind_some]
  have hat : interpretAtomic d order t = some [k + 1] := by
    have hlast : t.getLast? = some ((natStr op.outcome).getLast (natStr_ne_nil _)) := by
      rw [← ht]
      unfold measurementName
      simp only [List.getLast?_append, List.getLast?_cons, List.getLast?_eq_some_getLast (natStr_ne_nil op.outcome)]
      rfl
    have hdig : Digit ((natStr op.outcome).getLast (natStr_ne_nil _)) := natStr_digit _ _ (List.getLast_mem _)
    generalize (natStr op.outcome).getLast (natStr_ne_nil _) = z at hdig hlast
    unfold interpretAtomic
    rw [hlast]
    have hz : ¬ (z = '>' ∨ z = ')' ∨ z = ']' ∨ z = '}') := by
      rintro (rfl | rfl | rfl | rfl) <;> simp [Digit] at hdig
    rcases hh : t.head? with _ | x
    · rw [List.head?_eq_none_iff] at hh
      rw [hh] at hlast
      simp at hlast
    · simp only
      rw [if_pos (.inr (.inr ⟨hno _ (by simp), hno _ (by simp)⟩)), if_neg hz, hget]
      rfl
  rw [hat, Option.bind_some]
  have := ranks_of_rank (I := I) (r := k + 1) (by omega) hlt
  exact this

end Verif.Symbolic

import Verif.Sanitise.Bracket
import Verif.Sanitise.Symbols
import Verif.EndToEnd.Witness
/-!
C60: concrete cases, and moments that are read as something else.
-/
namespace Verif.Sanitise
open Verif.Common Verif.Scenario Verif.Orbits Verif.Components Verif.Moment Verif.State Verif.Text Verif.Names Verif.EndToEnd
open Verif.SdpEnd (copiesOf)

/-- Two parties, one shared source. -/
def pair : Input where
  D := { names := [1, 2], dag := [(10, [1, 2])], nonclassicalLatents := [], classicalLatents := [], classicalSources := [10] }
  outcomes := [2, 2]
  priv := [1, 1]
  levels := [1]
  allOutcomes := false

def pairNames : List Str := [['A'], ['B']]

theorem pair_accepted : pair.Accepted where
  outcomes_length := rfl
  priv_length := rfl
  parties := by decide
  outcomes_pos := by decide
  priv_pos := by decide
  acyclic := ⟨fun p => p, by decide +kernel⟩

theorem pair_names : NamesOk pair pairNames := by decide +kernel

/-- Both parties answer with the shared random bit. -/
def pairModel : ClassicalModel pair.scenario pair.observed Bool ℚ :=
  functional _ _ (fun _ => 1 / 2) (by intro; norm_num) (by simp) (fun p _ _ l => if p < 2 then if l ⟨0, by decide⟩ then 1 else 0 else 0)
    (by
      intro p hp x y l
      have ho : pair.scenario.outcomes p = 2 := by
        have hp : p < 2 := hp
        rcases p with _ | _ | p
        · rfl
        · rfl
        · omega
      rw [ho]
      split
      · split <;> omega
      · omega)
    (by
      intro p x y l m h
      by_cases hp : p < 2
      · rw [if_pos hp, if_pos hp]
        have : pair.scenario.hyp 0 p = true := by
          rcases p with _ | _ | p
          · decide +kernel
          · decide +kernel
          · omega
        rw [h ⟨0, by decide⟩ this]
      · rw [if_neg hp, if_neg hp])

example : pair.scenario.lexorder.length = 4 := by decide +kernel
example : probability pairModel [0, 2] = 1 / 2 ∧ probability pairModel [0] = 1 / 2 ∧ probability pairModel [2] = 1 / 2 := by decide +kernel
example : pair.monomials = [[], [[0]], [[2]], [[0, 2]]] := by decide +kernel
example : momentText pair pairNames [[0, 2]] = "P[A=0 B=0]".toList := by decide +kernel

example : RanksFit pair.scenario ∧ copiesOf pair.scenario ≤ 254 := by unfold RanksFit; decide +kernel

/-- Instances of the theorems: the name, the list of operators in the other order and the bracketed list all denote the joint moment. -/
example {s : Session} (hr : Reachable pair pairNames toKill s) :
    sanitise pair pairNames toKill s (.name "P[A=0 B=0]".toList) = some (s, [[0, 2]]) ∧
    (∃ s', sanitise pair pairNames toKill s (.array1 [2, 0]) = some (s', [[0, 2]])) ∧
    (∃ s', sanitise pair pairNames toKill s (.name "<B=0 A=0>".toList) = some (s', [[0, 2]])) := by
  have hm : ([[0, 2]] : Mon) ∈ pair.monomials := by decide +kernel
  have h1 := C60_name_reads_back pair_accepted pair_names hr .refl (C60_monomials_in_table pair_accepted pair_names hr hm)
  have hcol := C60_column_ranks_partial pair_accepted pair_names (by unfold RanksFit; decide +kernel) (by decide +kernel) hr
  have hc : pair.columns = [[false, false, false, false], [true, false, false, false], [false, false, true, false], [true, false, true, false]] := by decide +kernel
  have hmm : pair.monomials = [[], [[0]], [[2]], [[0, 2]]] := by decide +kernel
  rw [hc, hmm] at hcol
  have h2 : ∃ s', sanitise pair pairNames toKill s (.array1 [2, 0]) = some (s', [[0, 2]]) := by
    cases hcol with
    | cons _ hcol =>
      cases hcol with
      | cons _ hcol =>
        cases hcol with
        | cons _ hcol =>
          cases hcol with
          | cons h _ =>
            apply h
            intro i
            rcases i with _ | _ | _ | _ | i <;> simp
  refine ⟨by rw [← h1]; congr 1, h2, ?_⟩
  have h3 := C60_bracket_name_reads_as_ranks pair_accepted pair_names (order := toKill) (fun _ => Iff.rfl) hr [2, 0] ["B=0".toList, "A=0".toList] (by simp)
    (.cons ⟨⟨2, [1], 0, 0⟩, by decide +kernel, by decide +kernel⟩ (.cons ⟨⟨1, [1], 0, 0⟩, by decide +kernel, by decide +kernel⟩ .nil))
  have e : ("<B=0 A=0>".toList : Str) = '<' :: joinStr ' ' ["B=0".toList, "A=0".toList] ++ ['>'] := by decide +kernel
  rw [e, h3]
  exact h2

/-- The symbol of the joint moment. -/
example {s : Session} (hr : Reachable pair pairNames toKill s) : sanitise pair pairNames toKill s (.symbol ["P[A=0,B=0]".toList]) = some (s, [[0, 2]]) :=
  C60_symbol_reads_back pair_accepted pair_names hr .refl (C60_monomials_in_table pair_accepted pair_names hr (by decide +kernel)) (by
    rw [show ([[0, 2]] : Mon).map (symbolText pair pairNames) = ["P[A=0,B=0]".toList] by decide +kernel])

/-- The same problem with two copies of the source. -/
def pair2 : Input := { pair with levels := [2] }

/-- Exchange of the two copies of the source. -/
def exchange (s c : Nat) : Nat := if s = 0 ∧ c = 1 then 2 else if s = 0 ∧ c = 2 then 1 else c

theorem exchange_relabelling : Verif.Symmetry.Relabelling pair2.scenario exchange := by
  intro s hs
  have hs : s < 1 := hs
  have : s = 0 := by omega
  subst this
  have hl : pair2.scenario.level 0 = 2 := rfl
  rw [hl]
  unfold exchange
  refine ⟨?_, ?_, ?_⟩
  · decide
  · intro c h1 h2
    have : c = 1 ∨ c = 2 := by omega
    rcases this with rfl | rfl <;> decide
  · intro c d h1 h2 h3 h4 e
    have hc : c = 1 ∨ c = 2 := by omega
    have hd : d = 1 ∨ d = 2 := by omega
    rcases hc with rfl | rfl <;> rcases hd with rfl | rfl <;> first | rfl | (revert e; decide)

/-- Both parties on the second copy, listed in the other order, are both parties on the first copy. -/
theorem pair2_relabelled : Relabelled pair2.scenario [0, 4] [6, 2] := by
  refine ⟨exchange, exchange_relabelling, fun op => ?_⟩
  have key : ∀ op ∈ pair2.scenario.lexorder, (∃ i ∈ [6, 2], pair2.scenario.lexorder[i]? = some op) ↔ ∃ i ∈ [0, 4], pair2.scenario.lexorder[i]? = some (Verif.Symmetry.act exchange op) := by
    decide +kernel
  constructor
  · rintro ⟨i, hi, e⟩
    have hm := List.mem_of_getElem? e
    exact ⟨(mem_lexorder _).1 hm, (key op hm).1 ⟨i, hi, e⟩⟩
  · rintro ⟨hv, h⟩
    exact (key op ((mem_lexorder _).2 hv)).2 h

/-- The name of the moment does not show the copies, and both listings denote it at any time. -/
example {s s' : Session} (hr : Reachable pair2 pairNames toKill s) {m : Mon} (e : sanitise pair2 pairNames toKill s (.array1 [0, 4]) = some (s', m)) :
    ∃ s'', sanitise pair2 pairNames toKill s' (.array1 [6, 2]) = some (s'', m) :=
  C60_relabelled_ranks_partial ⟨rfl, rfl, by decide, by decide, by decide, fun p => p, by decide +kernel⟩ (by decide +kernel) (by unfold RanksFit; decide +kernel) (by decide +kernel) hr
    (by decide +kernel) (by decide +kernel) pair2_relabelled e .refl

/-! ### Products of names -/

/-- A product of names that is not itself a name of the table denotes the joint moment of all the operators: in this problem "P[A=0]*P[B=0]" is read as P[A=0 B=0], whose
value is 1/2 in a model in which the product of P[A=0] and P[B=0] is 1/4. -/
theorem C60_false_product_of_names : ∃ s m, sanitise pair pairNames toKill (generated pair pairNames) (.name "P[A=0]*P[B=0]".toList) = some (s, m) ∧
    momentText pair pairNames m = "P[A=0 B=0]".toList ∧ valueOf pairModel m = 1 / 2 ∧ probability pairModel [0] * probability pairModel [2] = 1 / 4 := by
  have h : ((sanitise pair pairNames toKill (generated pair pairNames) (.name "P[A=0]*P[B=0]".toList)).map fun r =>
      decide (momentText pair pairNames r.2 = "P[A=0 B=0]".toList) && decide (valueOf pairModel r.2 = 1 / 2)) = some true := by decide +kernel
  obtain ⟨⟨s, m⟩, e, hm⟩ := Option.map_eq_some_iff.1 h
  simp only [Bool.and_eq_true, decide_eq_true_eq] at hm
  exact ⟨s, m, e, hm.1, hm.2, by decide +kernel⟩

/-- A power of a symbol denotes the symbol: the SymPy expression P[A=0]**2 is read as P[A=0]. -/
theorem C60_false_symbolic_power : ∃ s m, sanitise pair pairNames toKill (generated pair pairNames) (.symbol ["P[A=0]".toList, "P[A=0]".toList]) = some (s, m) ∧
    momentText pair pairNames m = "P[A=0]".toList ∧ valueOf pairModel m = 1 / 2 ∧ probability pairModel [0] * probability pairModel [0] = 1 / 4 := by
  have h : ((sanitise pair pairNames toKill (generated pair pairNames) (.symbol ["P[A=0]".toList, "P[A=0]".toList])).map fun r =>
      decide (momentText pair pairNames r.2 = "P[A=0]".toList) && decide (valueOf pairModel r.2 = 1 / 2)) = some true := by decide +kernel
  obtain ⟨⟨s, m⟩, e, hm⟩ := Option.map_eq_some_iff.1 h
  simp only [Bool.and_eq_true, decide_eq_true_eq] at hm
  exact ⟨s, m, e, hm.1, hm.2, by decide +kernel⟩

/-! ### More operators than the integer type can count -/

/-- Numbers of operators that are equal modulo the number of values of the integer type denote the same moment. -/
theorem C60_ranks_wrap {I : Input} {names order : List Str} {s : Session} {a b : List Nat} (h : List.Forall₂ (fun x y => x % dtypeWidth I.scenario = y % dtypeWidth I.scenario) a b) :
    sanitise I names order s (.array1 a) = sanitise I names order s (.array1 b) := by
  have : wrap I.scenario a = wrap I.scenario b := by
    unfold wrap
    induction h with
    | nil => rfl
    | cons h _ ih => rw [List.map_cons, List.map_cons, h, ih]
  simp only [sanitise, readRanks, this]

/-- One party with 129 settings and two outcomes: 258 operators, but 8-bit numbers. -/
def wide : Input where
  D := { names := [1], dag := [(10, [1])], nonclassicalLatents := [], classicalLatents := [], classicalSources := [10] }
  outcomes := [2]
  priv := [129]
  levels := [1]
  allOutcomes := false

def wideNames : List Str := [['A']]

theorem wide_accepted : wide.Accepted where
  outcomes_length := rfl
  priv_length := rfl
  parties := by decide
  outcomes_pos := by decide
  priv_pos := by decide
  acyclic := ⟨fun p => p, by decide +kernel⟩

theorem wide_names : NamesOk wide wideNames := by decide +kernel

/-- The party answers 0, except for the last setting. -/
def wideModel : ClassicalModel wide.scenario wide.observed Unit ℚ :=
  functional _ _ (fun _ => 1) (by intro; norm_num) (by simp) (fun p x _ _ => if p = 0 ∧ x = 128 then 1 else 0)
    (by
      intro p hp x y l
      have hp : p < 1 := hp
      have : p = 0 := by omega
      subst this
      have ho : wide.scenario.outcomes 0 = 2 := rfl
      rw [ho]
      split <;> omega)
    (by intro p x y l m h; rfl)

theorem wide_lexorder : wide.scenario.lexorder[256]? = some ⟨1, [1], 128, 0⟩ ∧ wide.scenario.lexorder[0]? = some ⟨1, [1], 0, 0⟩ ∧ wide.scenario.lexorder.length = 258 ∧
    dtypeWidth wide.scenario = 256 := by decide +kernel

/-- In this problem the operator with setting 128 and outcome 0, given as a row or by its name "<A_128=0>", denotes the moment of another operator, "A_0=0": its value in the model is 1
although the probability of the operator is 0. -/
theorem C60_false_many_operators {s : Session} (hr : Reachable wide wideNames toKill s) : ∃ s' m,
    sanitise wide wideNames toKill s (.array2 [⟨1, [1], 128, 0⟩]) = some (s', m) ∧ sanitise wide wideNames toKill s (.name "<A_128=0>".toList) = some (s', m) ∧
    valueOf wideModel m = 1 ∧ probability wideModel [256] = 0 := by
  obtain ⟨h1, h2, h3, h4⟩ := wide_lexorder
  have hw : sanitise wide wideNames toKill s (.array1 [256]) = sanitise wide wideNames toKill s (.array1 [0]) := C60_ranks_wrap (.cons (by rw [h4]) .nil)
  have hz : sanitise wide wideNames toKill s (.array1 [0]) = some (monomial wide wideNames s [0]) := by
    show readRanks wide wideNames s [0] = _
    unfold readRanks
    have : wrap wide.scenario [0] = [0] := by simp [wrap]
    rw [this, h3, if_pos (by decide)]
  refine ⟨(monomial wide wideNames s [0]).1, (monomial wide wideNames s [0]).2, ?_, ?_, ?_, by decide +kernel⟩
  · rw [C60_rows_read_as_ranks (w := [256]) (.cons h1 .nil), hw, hz]
  · have h := C60_bracket_name_reads_as_ranks wide_accepted wide_names (order := toKill) (fun _ => Iff.rfl) hr [256] ["A_128=0".toList] (by simp)
      (.cons ⟨_, h1, by decide +kernel⟩ .nil)
    have e : ("<A_128=0>".toList : Str) = '<' :: joinStr ' ' ["A_128=0".toList] ++ ['>'] := by decide +kernel
    rw [e, h, hw, hz]
  · have hv := monomialOf_value wideModel (by decide +kernel) (reachable_inv wide_accepted wide_names hr).1.cache (a := [0]) (by intro x hx; rw [h3]; simp at hx; omega)
    rw [show (monomial wide wideNames s [0]).2 = (monomialOf wide.scenario s.cache [0]).2 from rfl, hv]
    decide +kernel

end Verif.Sanitise

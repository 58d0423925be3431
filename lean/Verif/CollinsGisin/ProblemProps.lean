import Verif.CollinsGisin.ProblemLemmas
import Verif.Orbits.Props
import Mathlib.Algebra.Order.Ring.Rat
/-!
C28 for every inflation problem: the linear program's rows describe exactly the behaviours of the problem.
-/
namespace Verif.CollinsGisin
open Verif.Orbits
open Verif.Common
open Verif.Scenario
open Verif.Symmetry (lexorderSymmetries)

theorem columnOf_lt {symReq : Bool} {syms : List (List Nat)} {raw : List (List Bool)} {bv : List Bool} {c : Nat}
    (h : columnOf symReq syms raw bv = some c) : c < (representatives symReq syms raw).length := by
  unfold columnOf at h
  obtain ⟨i, _, hi⟩ := Option.bind_eq_some_iff.1 h
  unfold npUniqueInv at hi
  rw [List.getElem?_map, Option.map_eq_some_iff] at hi
  obtain ⟨v, hv, rfl⟩ := hi
  unfold representatives npUniquePos
  rw [List.length_map, List.length_map]
  exact List.idxOf_lt_length_iff.2 (mem_npUnique.2 (List.mem_of_getElem? hv))

theorem mem_of_mapM {α β : Type} {f : α → Option β} {l : List α} {r : List β} (h : l.mapM f = some r) {b : β} (hb : b ∈ r) :
    ∃ a ∈ l, f a = some b := by
  induction l generalizing r with
  | nil => simp at h; subst h; simp at hb
  | cons c l ih =>
    simp only [List.mapM_cons, Option.pure_def, Option.bind_eq_bind, Option.bind_eq_some_iff, Option.some.injEq] at h
    obtain ⟨d, hd, r', hr', rfl⟩ := h
    rcases List.mem_cons.1 hb with rfl | hb
    · exact ⟨c, by simp, hd⟩
    · obtain ⟨a, ha, hf⟩ := ih hr' hb
      exact ⟨a, List.mem_cons_of_mem _ ha, hf⟩

theorem toRow_columns {symReq : Bool} {syms : List (List Nat)} {raw : List (List Bool)} {ts : List (Bool × List Bool)} {row : List (Int × Nat)}
    (h : toRow (columnOf symReq syms raw) ts = some row) : ∀ t ∈ row, t.2 < (representatives symReq syms raw).length := by
  intro t ht
  obtain ⟨a, _, ha⟩ := mem_of_mapM h ht
  obtain ⟨c, hc, rfl⟩ := Option.map_eq_some_iff.1 ha
  exact columnOf_lt hc

theorem rowValue_congr {K : Type} [Ring K] {x y : Nat → K} {row : List (Int × Nat)} (h : ∀ t ∈ row, x t.2 = y t.2) :
    rowValue x row = rowValue y row := by
  unfold rowValue
  congr 1
  apply List.map_congr_left
  intro t ht
  rw [h t ht]

theorem equalities_columns {n : Nat} {gs : Groups} {adj : Nat → Nat → Bool} {symReq : Bool} {syms : List (List Nat)} {rows : List (List (Int × Nat))}
    (h : equalities n gs adj symReq syms = some rows) :
    ∀ row ∈ rows, ∀ t ∈ row, t.2 < (representatives symReq syms (rawMonomials n gs adj)).length := by
  intro row hrow
  obtain ⟨bv, _, hb⟩ := mem_of_mapM h hrow
  obtain ⟨ts, _, hts⟩ := Option.bind_eq_some_iff.1 hb
  exact toRow_columns hts

theorem inequalities_columns {n : Nat} {gs : Groups} {adj : Nat → Nat → Bool} {symReq : Bool} {syms : List (List Nat)} {rows : List (List (Int × Nat))}
    (h : inequalities n gs adj symReq syms = some rows) :
    ∀ row ∈ rows, ∀ t ∈ row, t.2 < (representatives symReq syms (rawMonomials n gs adj)).length := by
  intro row hrow
  obtain ⟨bv, _, hb⟩ := mem_of_mapM h hrow
  unfold inequalityRow at hb
  split at hb
  · obtain ⟨ts, _, hts⟩ := Option.bind_eq_some_iff.1 hb
    exact toRow_columns hts
  · exact toRow_columns hb

/-- **C28.** For every inflation problem (scenario `S`, causal structure `D`, with classical or nonclassical sources), with the
childless parties' last outcomes eliminated or kept, and with or without symmetrisation under the relabellings of the copies: the
rows are generated without exceptions, and a vector of values of the columns satisfies all of them exactly when it lists the
probabilities that some non-negative behaviour (invariant, when symmetrising) assigns to the columns' events. -/
theorem C28_every_problem {K : Type} [CommRing K] [PartialOrder K] [IsOrderedRing K] (S : Scenario) (D : DagInput)
    (hout : ∀ p, p < S.nParties → 1 ≤ S.outcomes p) (hmeas : S.measKeys ≠ []) (anyNonclassical : Bool) (hasChildren : Nat → Bool)
    (force symReq : Bool) :
    let gs := groupsOf S hasChildren force
    let adj := templateAdj S D anyNonclassical
    let n := S.lexorder.length
    let syms := lexorderSymmetries S
    ∃ eqs ineqs, equalities n gs adj symReq syms = some eqs ∧ inequalities n gs adj symReq syms = some ineqs ∧
      ∀ x : Nat → K, ((∀ row ∈ eqs, rowValue x row = 0) ∧ (∀ row ∈ ineqs, 0 ≤ rowValue x row)) ↔
        ∃ p : List Bool → K, Marginalises n (blocksOf gs) adj p ∧ Nonneg n (blocksOf gs) adj p ∧
          (symReq = true → Invariant n syms p) ∧
          ∀ c, c < (representatives symReq syms (rawMonomials n gs adj)).length →
            x c = p ((representatives symReq syms (rawMonomials n gs adj)).getD c []) := by
  intro gs adj n syms
  have h : BlocksOk n (blocksOf gs) := blocksOk_groupsOf S hout hasChildren force
  have hs : ∀ a b, adj a b = adj b a := templateAdj_symm S D anyNonclassical
  have hne : gs ≠ [] := by
    show groupsOf S hasChildren force ≠ []
    rw [groupsOf_eq]
    simpa using hmeas
  have hG : symReq = true → IsGroup n syms := fun _ => symmetries_isGroup S
  have hR : symReq = true → Relabels gs adj syms := fun _ => relabels_groupsOf S hout D anyNonclassical hasChildren force
  have hz : Marginalises n (blocksOf gs) adj (fun _ => (0 : K)) := by intro b e _ _; simp
  obtain ⟨eqs, heqs, _⟩ := C28_equalities_hold gs h hs symReq syms hG _ hz (fun _ _ _ _ _ => rfl)
  obtain ⟨ineqs, hineqs, _⟩ := C28_inequalities_are_probabilities gs hne h hs symReq syms hG _ hz (fun _ _ _ _ _ => rfl)
  refine ⟨eqs, ineqs, heqs, hineqs, fun x => ⟨?_, ?_⟩⟩
  · rintro ⟨h1, h2⟩
    obtain ⟨p, hp, hpos, hi, hc⟩ := C28_no_spurious_solutions gs hne h hs symReq syms hG hR x eqs ineqs heqs hineqs h1 h2
    exact ⟨p, hp, hpos, hi, fun c hlt => (hc c hlt).symm⟩
  · rintro ⟨p, hp, hpos, hi, hc⟩
    obtain ⟨eqs', heqs', h1⟩ := C28_equalities_hold gs h hs symReq syms hG p hp hi
    obtain ⟨ineqs', hineqs', h2⟩ := C28_inequalities_hold gs hne h hs symReq syms hG p hp hi hpos
    rw [heqs, Option.some.injEq] at heqs'
    rw [hineqs, Option.some.injEq] at hineqs'
    subst heqs'; subst hineqs'
    constructor
    · intro row hrow
      rw [rowValue_congr (y := columnValue n gs adj symReq syms p) fun t ht => hc _ (equalities_columns heqs row hrow t ht)]
      exact h1 row hrow
    · intro row hrow
      rw [rowValue_congr (y := columnValue n gs adj symReq syms p) fun t ht => hc _ (inequalities_columns hineqs row hrow t ht)]
      exact h2 row hrow

/-! Non-vacuity: one party, one source with two copies, two outcomes; the relabelling swaps the two copies. -/

def exS : Scenario :=
  { nParties := 1, nSources := 1, outcomes := fun _ => 2, settings := fun _ => 1, hyp := fun _ _ => true, level := fun _ => 2 }
def exD : DagInput :=
  { names := [1], dag := [(10, [1])], nonclassicalLatents := [], classicalLatents := [], classicalSources := [10] }

/-- Columns 1, p(0), p(00): the inequalities are p(00) ≥ 0, p(01) = p(0) - p(00) ≥ 0, p(11) = 1 - 2 p(0) + p(00) ≥ 0. -/
example : inequalities exS.lexorder.length (groupsOf exS (fun _ => false) false) (templateAdj exS exD false) true (lexorderSymmetries exS) =
    some [[(1, 2)], [(1, 1), (-1, 2)], [(1, 0), (-1, 1), (-1, 1), (1, 2)]] := by decide +kernel

/-- With all the outcomes kept the same relations are equalities. -/
example : equalities exS.lexorder.length (groupsOf exS (fun _ => true) false) (templateAdj exS exD false) true (lexorderSymmetries exS) =
    some [[(1, 0), (-1, 1), (-1, 2)], [(1, 1), (-1, 3), (-1, 4)], [(1, 0), (-1, 1), (-1, 1), (1, 3), (-1, 5)]] := by decide +kernel

/-- The hypotheses of `C28_every_problem` hold here, and there is a behaviour with p(0) = 1/2 and p(00) = 1/3. -/
example : ∃ p : List Bool → Rat,
    Marginalises exS.lexorder.length (blocksOf (groupsOf exS (fun _ => false) false)) (templateAdj exS exD false) p ∧
    p [false, false, false, false] = 1 ∧ p [true, false, false, false] = 1/2 ∧ p [true, false, true, false] = 1/3 := by
  obtain ⟨eqs, ineqs, h1, h2, h3⟩ := C28_every_problem (K := Rat) exS exD (by intro p _; show 1 ≤ 2; omega) (by decide +kernel)
    false (fun _ => false) false true
  have e1 : eqs = [] := by
    have : equalities exS.lexorder.length (groupsOf exS (fun _ => false) false) (templateAdj exS exD false) true
      (lexorderSymmetries exS) = some [] := by decide +kernel
    rw [this] at h1; simpa using h1.symm
  have e2 : ineqs = [[(1, 2)], [(1, 1), (-1, 2)], [(1, 0), (-1, 1), (-1, 1), (1, 2)]] := by
    have : inequalities exS.lexorder.length (groupsOf exS (fun _ => false) false) (templateAdj exS exD false) true
      (lexorderSymmetries exS) = some [[(1, 2)], [(1, 1), (-1, 2)], [(1, 0), (-1, 1), (-1, 1), (1, 2)]] := by decide +kernel
    rw [this] at h2; simpa using h2.symm
  have hr : representatives true (lexorderSymmetries exS) (rawMonomials exS.lexorder.length (groupsOf exS (fun _ => false) false)
      (templateAdj exS exD false)) =
      [[false, false, false, false], [true, false, false, false], [true, false, true, false]] := by decide +kernel
  subst e1; subst e2
  obtain ⟨p, hp, _, _, hc⟩ := (h3 fun c => if c = 0 then 1 else if c = 1 then 1/2 else 1/3).1 ⟨by simp, by decide +kernel⟩
  rw [hr] at hc
  exact ⟨p, hp, (hc 0 (by decide)).symm, (hc 1 (by decide)).symm, (hc 2 (by decide)).symm⟩

end Verif.CollinsGisin

import Verif.Columns.Props
/-
Concrete cases for C42.
-/
namespace Verif.Columns
open Verif.Scenario Verif.Canon Verif.Canon.Spec Verif.Common Verif.MomentMatrix

/-- Two non-commuting operators are not reordered. -/
theorem canon_pair {nc om : BMat} {x y : Nat} (h : nc x y = true) (hs : nc y x = true) (hx : nc x x = false) (ho : om y x = false) :
    toCanonical nc om false false [x, y] = [x, y] := by
  have hne : y ≠ x := by rintro rfl; rw [h] at hx; simp at hx
  rw [toCanonical_eq]
  have : lexmonToCanonical nc [x, y] = [x, y] := by
    unfold lexmonToCanonical splitStep
    have h1 : subAll nc [x, y] = false := by simp [subAll, hx]
    have h2 : subAny nc [x, y] = true := by simp [subAny, h]
    simp [h1, h2, scanMin, hs, lexmonToCanonical]
  rw [this]
  simp [hasOrthoPair, ho, removeSquares, hne]

/-- Two sources feed one quantum latent, which is sent to both parties; two copies of each source. -/
def latentDag : DagInput := ⟨[0, 1], [(10, [20]), (11, [20]), (20, [0, 1])], [20], [], []⟩

def latentScenario : Scenario := ⟨2, 2, fun _ => 2, fun _ => 1, fun _ _ => true, fun _ => 2⟩

/-- **C42, quantum latents.** With nonclassical intermediate latents operators of different parties need not commute; the blocks of an NPA level only list the parties in increasing order, so the product `B A` of two non-commuting operators is missing from level 2. -/
theorem C42_npa_misses_products :
    (∀ x ∈ [11, 1], ∃ p, Allowed latentScenario (fun _ => 2) p x) ∧ ¬ Same latentScenario latentDag true [11, 1] [0] ∧
    ∀ m ∈ problemCols latentScenario latentDag true false (fun _ => 2) (npaSpecs latentScenario.nParties 2 0), ¬ Same latentScenario latentDag true [11, 1] m := by
  have hlen : latentScenario.lexorder.length = 16 := by decide
  have H := scenario_operatorList latentScenario latentDag.tbl true
  have hnc : padMat (latentScenario.notcomm latentDag.tbl true) 11 1 = true := by decide
  have hc1 : toCanonical (padMat (latentScenario.notcomm latentDag.tbl true)) latentScenario.orthomat false false [11, 1] = [11, 1] :=
    canon_pair hnc (by decide) (by decide) (by decide)
  have hc2 : toCanonical (padMat (latentScenario.notcomm latentDag.tbl true)) latentScenario.orthomat false false [1, 11] = [1, 11] :=
    canon_pair (by decide) (by decide) (by decide) (by decide)
  have hlt : ∀ x ∈ [11, 1], x < latentScenario.lexorder.length + 1 := by rw [hlen]; decide
  refine ⟨?_, ?_, ?_⟩
  · intro x hx
    simp only [List.mem_cons, List.not_mem_nil, or_false] at hx
    rcases hx with rfl | rfl
    · exact ⟨1, ⟨2, [1, 2], 0, 0⟩, by decide, by decide, by decide⟩
    · exact ⟨0, ⟨1, [1, 1], 0, 0⟩, by decide, by decide, by decide⟩
  · intro h
    have := (C03_canonical_detects_zero H _ hlt).2 h
    rw [hc1] at this
    simp at this
  · intro m hm hsame
    have hcomm : (false : Bool) = true → ∀ a b, padMat (latentScenario.notcomm latentDag.tbl true) a b = false := by simp
    have hml := cols_lt hcomm hm
    have he := (C03_canonical_decides_operator_equality H _ _ hlt hml).2 hsame
    rw [hc1, (C42_columns_canonical_nonzero hcomm m hm).1] at he
    subst he
    obtain ⟨b, hb, hfb⟩ := mem_cols.1 hm
    obtain ⟨hbs, _, _⟩ := mem_npaSpecs.1 hb
    rcases hfb with ⟨_, h⟩ | ⟨_, w, hw, hcw, _, hl⟩
    · simp at h
    · obtain ⟨h1, h2, _⟩ := product_mem (ops_ok latentScenario fun _ => 2) hw
      have hperm : ([11, 1] : List Nat).Perm w := by
        have := canon_perm (nc := padMat (latentScenario.notcomm latentDag.tbl true)) (om := latentScenario.orthomat) (w := w)
          (by rw [hcw]; omega) (by rw [hcw]; simp)
        rwa [hcw] at this
      rw [← h2, List.pairwise_map] at hbs
      have hp1 : partyOf latentScenario 11 = 1 := by decide
      have hp2 : partyOf latentScenario 1 = 0 := by decide
      have hlw := hperm.length_eq
      match w, hlw with
      | [x, y], _ =>
        have hx : x = 11 ∨ x = 1 := by
          have := hperm.symm.mem_iff.1 (List.mem_cons_self (a := x) (l := [y]))
          simpa using this
        rcases hx with rfl | rfl
        · have hy : y = 1 := by
            have := hperm.cons_inv
            simpa using this.symm
          subst hy
          simp [hp1, hp2] at hbs
        · have hy : y = 11 := by
            have : 11 ∈ [1, y] := hperm.mem_iff.1 (by simp)
            simp at this
            omega
          subst hy
          rw [hc2] at hcw
          simp at hcw

/-- A concrete problem and level: two binary measurements on one source, level `npa2`, no latents. -/
def tinyScenario : Scenario := ⟨2, 1, fun _ => 2, fun _ => 1, fun _ _ => true, fun _ => 1⟩
def tinyDag : DagInput := ⟨[0, 1], [(10, [0, 1])], [], [], []⟩

/-- The hypotheses of `C42_npa_level` and `C42_local_level` are met; the two operators that are not last outcomes are `1` and `3`. -/
example : PartiesCommute tinyScenario tinyDag true ∧ Allowed tinyScenario (fun _ => 2) 0 1 ∧ Allowed tinyScenario (fun _ => 2) 1 3 ∧
    npaSpecs 2 2 0 = [[], [0], [1], [0, 0], [0, 1], [1, 1]] ∧ localSpecs 2 [1, 1] 0 = [[], [0], [1], [0, 1]] ∧ localSpecs 2 [1, 1] 1 = [[], [0], [1]] := by
  refine ⟨C42_parties_commute rfl, ⟨⟨1, [1], 0, 0⟩, by decide, by decide, by decide⟩, ⟨⟨2, [1], 0, 0⟩, by decide, by decide, by decide⟩, by decide, by decide, by decide⟩

end Verif.Columns

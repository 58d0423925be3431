import Verif.Distinct.Moments
import Verif.EndToEnd.Build
/-!
The assertions of the linear program about its moments hold: building it never fails.
-/
namespace Verif.Distinct
open Verif.Common Verif.Scenario Verif.Orbits Verif.Components Verif.Moment Verif.State Verif.EndToEnd Verif.Sanitise Verif.SdpEnd
open Verif.Symmetry (lexorderSymmetries C14_count C14_identity_first)
open Verif.CollinsGisin
open Verif.LpSolver (columnsOf)

/-- The representatives are pairwise not identified. -/
theorem representatives_apart {n : Nat} {symReq : Bool} {syms : List (List Nat)} {vecs : List (List Bool)} (hG : symReq = true → IsGroup n syms)
    (hlen : ∀ v ∈ vecs, v.length = n) (hnd : vecs.Nodup) : (representatives symReq syms vecs).Pairwise fun v w => ¬ Identified symReq syms v w := by
  rw [List.pairwise_iff_getElem]
  intro i j hi hj hij hid
  have e1 := columnOf_representative hnd (List.getElem?_eq_getElem hi)
  have e2 := columnOf_representative hnd (List.getElem?_eq_getElem hj)
  have m1 : (representatives symReq syms vecs)[i] ∈ vecs := representatives_mem (List.getElem_mem hi)
  have m2 : (representatives symReq syms vecs)[j] ∈ vecs := representatives_mem (List.getElem_mem hj)
  have := columnOf_eq hG hlen hnd m1 m2 hid
  rw [e1, e2] at this
  have := Option.some.inj this
  omega

/-- The first vector is the first representative. -/
theorem representatives_head {n : Nat} {symReq : Bool} {syms : List (List Nat)} {v : List Bool} {vecs : List (List Bool)} (hG : symReq = true → IsGroup n syms)
    (hlen : ∀ w ∈ v :: vecs, w.length = n) (hnd : (v :: vecs).Nodup) : ∃ rest, representatives symReq syms (v :: vecs) = v :: rest := by
  have hl0 : (labels symReq syms (v :: vecs))[0]? = some 0 := by
    unfold labels
    cases symReq with
    | true =>
      rw [if_pos rfl, List.getElem?_map]
      have := (C16_orbit_representative (hG rfl) (v :: vecs) hlen hnd 0 0 v rfl).2 ⟨⟨v, rfl, sameOrbit_refl (hG rfl) (hlen v (List.mem_cons_self ..))⟩, fun _ _ _ _ => Nat.zero_le _⟩
      rw [this]
      rfl
    | false => simp
  have hmem : 0 ∈ labels symReq syms (v :: vecs) := List.mem_of_getElem? hl0
  have hidx : (labels symReq syms (v :: vecs)).idxOf 0 = 0 := by
    cases hL : labels symReq syms (v :: vecs) with
    | nil => simp [hL] at hl0
    | cons a l =>
      rw [hL] at hl0
      have : a = 0 := by simpa using hl0
      simp [this]
  have hs := npUnique_sorted (labels symReq syms (v :: vecs))
  cases hU : npUnique (labels symReq syms (v :: vecs)) with
  | nil => rw [← mem_npUnique, hU] at hmem; simp at hmem
  | cons u us =>
    have hu : u = 0 := by
      rw [← mem_npUnique, hU] at hmem
      rw [hU, List.pairwise_cons] at hs
      rcases List.mem_cons.1 hmem with h | h
      · exact h.symm
      · have := hs.1 0 h
        omega
    unfold representatives npUniquePos
    rw [hU, List.map_cons, List.map_cons, hu, hidx]
    exact ⟨_, rfl⟩

variable {I : Input}

theorem trivial_symmetries (h : I.symmetrize = false) : lexorderSymmetries I.scenario = [List.range I.scenario.lexorder.length] := by
  have h1 := C14_count I.scenario
  have h2 := C14_identity_first I.scenario
  have hp : ((List.range I.scenario.nSources).map fun s => (I.scenario.level s).factorial).prod = 1 := by
    apply List.prod_eq_one
    intro x hx
    obtain ⟨s, -, rfl⟩ := List.mem_map.1 hx
    show (I.levels.getD s 0).factorial = 1
    unfold Input.symmetrize at h
    rw [List.any_eq_false] at h
    by_cases hs : s < I.levels.length
    · rw [List.getD_eq_getElem _ _ hs]
      have := h _ (List.getElem_mem hs)
      have : I.levels[s] = 1 := by simpa using this
      rw [this]
      rfl
    · rw [List.getD_eq_default _ _ (by omega)]
      rfl
  rw [hp] at h1
  cases hL : lexorderSymmetries I.scenario with
  | nil => rw [hL] at h1; simp at h1
  | cons a l =>
    rw [hL] at h1 h2
    have hl : l = [] := List.length_eq_zero_iff.1 (by simpa using h1)
    have ha : a = List.range I.scenario.lexorder.length := by simpa using h2
    rw [hl, ha]

theorem raw_spec (hI : I.Accepted) : (∀ v ∈ rawMonomials I.scenario.lexorder.length (groupsOf I.scenario I.hasChildren I.allOutcomes) (templateAdj I.scenario I.D I.anyNonclassical),
      v.length = I.scenario.lexorder.length) ∧
    (rawMonomials I.scenario.lexorder.length (groupsOf I.scenario I.hasChildren I.allOutcomes) (templateAdj I.scenario I.D I.anyNonclassical)).Nodup :=
  ⟨raw_length (blocksOk_groupsOf I.scenario hI.out_pos I.hasChildren I.allOutcomes) (templateAdj_symm I.scenario I.D I.anyNonclassical),
    nodup_rawMonomials (blocksOk_groupsOf I.scenario hI.out_pos I.hasChildren I.allOutcomes)⟩

/-- No two columns are related by a relabelling of the copies. -/
theorem columns_apart (hI : I.Accepted) : I.columns.Pairwise fun v w => ¬ SameOrbit (lexorderSymmetries I.scenario) v w := by
  obtain ⟨h1, h2⟩ := raw_spec hI
  have := representatives_apart (symReq := I.symmetrize) (syms := lexorderSymmetries I.scenario) (fun _ => symmetries_isGroup I.scenario) h1 h2
  refine List.Pairwise.imp_of_mem ?_ this
  intro v w hv hw h hs
  apply h
  unfold Identified
  split
  · exact hs
  · rename_i hf
    rw [trivial_symmetries (by simpa using hf)] at hs
    obtain ⟨r, hr, e⟩ := hs
    rw [List.mem_singleton] at hr
    subst hr
    rw [image_id (h1 v (representatives_mem hv))] at e
    exact e

/-- The first column is the empty set of operators. -/
theorem columns_head (hI : I.Accepted) : ∃ rest, I.columns = List.replicate I.scenario.lexorder.length false :: rest := by
  obtain ⟨h1, h2⟩ := raw_spec hI
  have e : ∃ rest, rawMonomials I.scenario.lexorder.length (groupsOf I.scenario I.hasChildren I.allOutcomes) (templateAdj I.scenario I.D I.anyNonclassical) =
      List.replicate I.scenario.lexorder.length false :: rest := by
    unfold rawMonomials Verif.Cliques.allAndMaximalCliques
    rw [List.flatMap_cons]
    exact ⟨_, rfl⟩
  obtain ⟨rest, e⟩ := e
  unfold Input.columns columnsOf
  rw [e] at h1 h2 ⊢
  exact representatives_head (fun _ => symmetries_isGroup I.scenario) h1 h2

theorem flatnonzero_replicate (n : Nat) : flatnonzero (List.replicate n false) = [] := by
  rw [replicate_eq, List.eq_nil_iff_forall_not_mem]
  intro x hx
  rw [mem_flatnonzero_boolKey] at hx
  simp at hx

theorem monomials_head (hI : I.Accepted) : I.monomials.head? = some one := by
  obtain ⟨rest, e⟩ := columns_head hI
  unfold Input.monomials
  rw [e]
  unfold columnMoments
  rw [flatnonzero_replicate]
  have : factorize I.scenario [] = [[]] := by simp [factorize]
  simp [monomialOf, this, atomsOf, sortBy, one]

theorem monomials_nodup (hI : I.Accepted) (hS : copiesOf I.scenario ≤ 254) : I.monomials.Nodup :=
  columnMoments_nodup hS (columns_length hI) (columns_apart hI)

end Verif.Distinct

import Verif.EndToEnd.Known
import Verif.CollinsGisin.ProblemProps
/-!
The generated linear program and the classical models: lengths of the columns, the values computed by `set_distribution`, the generated rows.
-/
namespace Verif.EndToEnd
open Verif.Common Verif.Scenario Verif.Orbits Verif.Components Verif.Moment Verif.State Verif.CollinsGisin
open Verif.Symmetry (lexorderSymmetries)
open ClassicalModel (Capacity)

variable {I : Input}

theorem measKeys_ne (hI : I.Accepted) : I.scenario.measKeys ≠ [] := by
  have hn : 0 < I.D.names.length := List.length_pos_iff.2 hI.parties
  have hs : 0 < I.scenario.settings 0 := by
    rw [hI.ok.settings 0 hn]
    unfold effectiveSettings
    rw [← length_ndindex]
    apply List.length_pos_of_mem (a := List.replicate (I.observed.dims I.scenario 0).length 0)
    rw [mem_ndindex]
    refine ⟨by simp, fun s h h' => ?_⟩
    rw [List.getElem_replicate]
    unfold Observed.dims at h ⊢
    rcases s with _ | s
    · exact hI.ok.priv_pos 0 hn
    · rw [List.getElem_cons_succ, List.getElem_map]
      exact hI.out_pos _ (parents_lt (p := 0) (List.getElem_mem _))
  have hi : (I.scenario.inflationIndices 0) ≠ [] := by
    unfold Scenario.inflationIndices
    rw [Ne, List.map_eq_nil_iff]
    apply List.ne_nil_of_mem (a := List.replicate (I.scenario.numCopies 0).length 0)
    rw [mem_ndindex]
    refine ⟨by simp, fun s h h' => ?_⟩
    rw [List.getElem_replicate]
    unfold Scenario.numCopies at h ⊢
    rw [List.getElem_map]
    omega
  obtain ⟨J, hJ⟩ := List.exists_mem_of_ne_nil _ hi
  exact List.ne_nil_of_mem (a := (1, J, 0)) ((mem_measKeys I.scenario).2 ⟨le_refl _, hn, hJ, hs⟩)

theorem columns_length (hI : I.Accepted) : ∀ v ∈ I.columns, v.length = I.scenario.lexorder.length := fun v hv =>
  raw_length (blocksOk_groupsOf I.scenario hI.out_pos I.hasChildren I.allOutcomes) (templateAdj_symm I.scenario I.D I.anyNonclassical) v (representatives_mem hv)

theorem monomials_good (hI : I.Accepted) : ∀ m ∈ I.monomials, ∀ a ∈ m, GoodRanks I.scenario a :=
  (columnMoments_sound I.columns [] (nil_sound _ _) (columns_length hI)).1

theorem atomicFactors_good (hI : I.Accepted) : ∀ a ∈ I.atomicFactors, GoodRanks I.scenario a := by
  intro a ha
  unfold Input.atomicFactors at ha
  rw [(sortBy_perm _ _).mem_iff, mem_dedupB] at ha
  obtain ⟨m, hm, ham⟩ := List.mem_flatten.1 ha
  exact monomials_good hI m hm a ham

variable {Λ F : Type} [Fintype Λ] [Field F] [LinearOrder F] [IsStrictOrderedRing F]

theorem monomials_length : I.monomials.length = I.columns.length := by
  unfold Input.monomials
  generalize ([] : Cache) = c
  induction I.columns generalizing c with
  | nil => rfl
  | cons v vs ih => simp only [columnMoments, List.length_cons, ih]

omit [IsStrictOrderedRing F] in
theorem column_value (hI : I.Accepted) (M : ClassicalModel I.scenario I.observed Λ F) {i : Nat} (hi : i < I.columns.length)
    (hc : Capacity I.scenario (flatnonzero (I.columns.getD i []))) : valF M.event (I.monomials.getD i one) = M.vec (I.columns.getD i []) := by
  have h := (columnMoments_sound I.columns [] (nil_sound I.scenario.lexorder.length (lexorderSymmetries I.scenario)) (columns_length hI)).2
  have hi' : i < I.monomials.length := by rw [monomials_length]; exact hi
  rw [List.getD_eq_getElem _ _ hi] at hc ⊢
  rw [List.getD_eq_getElem _ _ hi']
  exact (List.forall₂_iff_get.1 h).2 i hi hi' M hc

/-- The values of `set_distribution` are the model's. -/
theorem distributionValues_sound (hI : I.Accepted) (M : ClassicalModel I.scenario I.observed Λ F) {P : List Nat → Rat} (hP : I.Realises M P) :
    ∃ vals, I.distributionValues P = some vals ∧ ∀ t ∈ vals, ∀ x, t.2 = some x → valF M.event t.1 = ((x : Rat) : F) := by
  unfold Input.distributionValues
  have hg : ∀ a ∈ I.atomicFactors.filter I.knowable, GoodRanks I.scenario a ∧ I.knowable a = true := by
    intro a ha
    rw [List.mem_filter] at ha
    exact ⟨atomicFactors_good hI a ha.1, ha.2⟩
  generalize I.atomicFactors.filter I.knowable = l at hg
  induction l with
  | nil => exact ⟨[], rfl, by simp⟩
  | cons a l ih =>
    obtain ⟨vals, h1, h2⟩ := ih fun b hb => hg b (List.mem_cons_of_mem _ hb)
    obtain ⟨g1, g2⟩ := hg a (List.mem_cons_self ..)
    obtain ⟨v, e1, e2⟩ := atomMarginal_sound hI M hP g1 g2
    refine ⟨([a], some v) :: vals, ?_, ?_⟩
    · rw [List.mapM_cons, h1, e1]
      rfl
    · intro t ht x hx
      rcases List.mem_cons.1 ht with rfl | ht
      · rw [← Option.some.inj hx, e2]
        simp [valF]
      · exact h2 t ht x hx

/-- The parts of a generated program. -/
theorem lpEnv_some {name : Atom → String} {E : Env Mon} (h : I.lpEnv name = some E) :
    ∃ eqs ineqs,
      equalities I.scenario.lexorder.length (groupsOf I.scenario I.hasChildren I.allOutcomes) (templateAdj I.scenario I.D I.anyNonclassical) I.symmetrize
        (lexorderSymmetries I.scenario) = some eqs ∧
      inequalities I.scenario.lexorder.length (groupsOf I.scenario I.hasChildren I.allOutcomes) (templateAdj I.scenario I.D I.anyNonclassical) I.symmetrize
        (lexorderSymmetries I.scenario) = some ineqs ∧
      I.monomials.head? = some one ∧ I.monomials.Nodup ∧
      E = ⟨⟨I.knowable, I.doConditional, fun _ => false, name⟩, id, I.monomials, false, Input.sparseRows eqs, Input.sparseRows ineqs⟩ := by
  unfold Input.lpEnv at h
  split at h
  · rename_i eqs ineqs h1 h2
    split at h
    · rename_i h3
      exact ⟨eqs, ineqs, h1, h2, h3.1, h3.2, (Option.some.inj h).symm⟩
    · simp at h
  · simp at h

omit [LinearOrder F] [IsStrictOrderedRing F] in
theorem dictValF_sparse [CharZero F] (row : List (Int × Nat)) (x : Nat → F) : dictValF (row.map fun t => (t.2, (t.1 : Rat))) x = rowValue x row := by
  unfold dictValF rowValue
  rw [List.map_map]
  congr 1
  apply List.map_congr_left
  intro t _
  show (((t.1 : Rat) : Rat) : F) * x t.2 = (t.1 : F) * x t.2
  rw [Rat.cast_intCast]

/-- The generated rows hold for the probabilities of the columns. -/
theorem rows_hold (hI : I.Accepted) (M : ClassicalModel I.scenario I.observed Λ F) (hcap : ∀ v ∈ I.columns, Capacity I.scenario (flatnonzero v))
    {name : Atom → String} {E : Env Mon} (hE : I.lpEnv name = some E) :
    (∀ r ∈ E.minEq, dictValF r (columnsF E (valF M.event)) = 0) ∧ (∀ r ∈ E.minIneq, 0 ≤ dictValF r (columnsF E (valF M.event))) := by
  obtain ⟨eqs, ineqs, h1, h2, _, _, rfl⟩ := lpEnv_some hE
  obtain ⟨eqs', ineqs', h1', h2', h⟩ := C28_every_problem (K := F) I.scenario I.D hI.out_pos (measKeys_ne hI) I.anyNonclassical I.hasChildren I.allOutcomes I.symmetrize
  have e1 : eqs' = eqs := Option.some.inj (h1'.symm.trans h1)
  have e2 : ineqs' = ineqs := Option.some.inj (h2'.symm.trans h2)
  subst e1 e2
  have hn : Nonneg I.scenario.lexorder.length (blocksOf (groupsOf I.scenario I.hasChildren I.allOutcomes)) (templateAdj I.scenario I.D I.anyNonclassical) M.vec := by
    intro e he
    obtain ⟨k1, k2⟩ := ClassicalModel.isEvent_nodup (blocksOk_groupsOf I.scenario hI.out_pos I.hasChildren I.allOutcomes) he
    rw [M.vec_boolKey k1 k2]
    exact M.event_nonneg e
  have hcol : ∀ c, c < I.columns.length → valF M.event (I.monomials.getD c one) = M.vec (I.columns.getD c []) := fun c hc =>
    column_value hI M hc (hcap _ (by rw [List.getD_eq_getElem _ _ hc]; exact List.getElem_mem _))
  obtain ⟨g1, g2⟩ := (h (fun i => valF M.event (I.monomials.getD i one))).2
    ⟨M.vec, M.marginalises hI.ok hI.out_pos _ _ _, hn, fun _ => M.vec_invariant, hcol⟩
  constructor
  · intro r hr
    obtain ⟨row, hrow, rfl⟩ := List.mem_map.1 hr
    rw [dictValF_sparse]
    exact g1 row hrow
  · intro r hr
    obtain ⟨row, hrow, rfl⟩ := List.mem_map.1 hr
    rw [dictValF_sparse]
    exact g2 row hrow

end Verif.EndToEnd

import Verif.Mixture.Accepts
import Verif.Hierarchy.Physical
/-!
The generating sets of the NPA, local and physical levels are closed under taking parts.
-/
namespace Verif.Mixture
open Verif.Common Verif.Canon Verif.Canon.Spec Verif.Scenario Verif.Components Verif.Moment Verif.MomentMatrix Verif.SymMM Verif.SdpRepr Verif.Symmetry Verif.SdpEnd Verif.SdpNames Verif.Hierarchy Verif.Generate Verif.Physical
open Verif.State (Dict Mon)
open Verif.SdpState (Call Args SolverOut)
open Verif.Columns (fromBlock_sound product_mem ops_ok measOps partyOf mem_product_of canon_perm npaSpecs localSpecs)
open Verif.EndToEnd (CausalModel WellFormed toClassical_realises)

variable {I : EndToEnd.Input} {ch : Choice} {name : Atom → String} {cols : List (List Nat)} {B : Built}

/-- Columns made from lists of products of parties that contain all parts of their products. -/
theorem specCols_subClosed {specs : List (List Nat)} (hs : ∀ b ∈ specs, ∀ b', b'.Sublist b → b' ∈ specs) : SubClosed I (specCols I specs) := by
  intro m hm p hp
  obtain ⟨b, hb, hfb⟩ := Columns.mem_cols.1 hm
  have hsound := fromBlock_sound (operatorList I) (fun h => commuting_none h) (ops_ok I.scenario (cardinalities I)) hfb
  have hnil : [] ∈ specCols I specs := Columns.mem_cols.2 ⟨[], hs b hb [] (List.nil_sublist _), .inl ⟨rfl, rfl⟩⟩
  rcases hfb with ⟨rfl, rfl⟩ | ⟨hne, w, hw, hc, h0, hl⟩
  · exact ⟨[], hnil, .refl _⟩
  have hpm := product_mem (ops_ok I.scenario (cardinalities I)) hw
  have hwr : InRange I w := fun x hx => ((ops_ok I.scenario (cardinalities I)).lt _ x (hpm.2.2 x hx)).2
  have hmr : InRange I m := fun x hx => ((ops_ok I.scenario (cardinalities I)).lt _ x (hsound.2.2.2.2 x hx)).2
  have hm0 : 0 ∉ m := fun hx => by
    have := ((ops_ok I.scenario (cardinalities I)).lt _ 0 (hsound.2.2.2.2 0 hx)).1
    omega
  have hred : Reduced (notcomm I) (orthomat I) m := by
    have := canonical_reduced hmr
    rwa [show toCanonical (notcomm I) (orthomat I) (allCommute I) false m = m from hsound.1] at this
  have hwm : Same I w m := by
    have := canonical_opEq (I := I) false hwr
    rwa [show toCanonical (notcomm I) (orthomat I) (allCommute I) false w = m from hc] at this
  have hnz : ¬ Same I w [0] := fun h => by
    have hmz : Same I m [0] := hwm.symm.trans h
    have := (C03_canonical_detects_zero (operatorList I) _ hmr).2 hmz
    have hcm : toCanonical (notcomm I) (orthomat I) (allCommute I) false m = m := hsound.1
    rw [canonC_eq (fun h => commuting_none h), this] at hcm
    exact h0 hcm.symm
  have hkeep : Same I (w.filter p) (m.filter p) := opEq_keep p hwm hnz
  have hperm : m.Perm w := by
    have hc' : toCanonical (notcomm I) (orthomat I) (allCommute I) false w = m := hc
    rw [canonC_eq (fun h => commuting_none h)] at hc'
    rw [← hc']
    refine canon_perm ?_ (by rw [hc']; exact h0)
    rw [hc', hl, hpm.1]
  have hredp : Reduced (notcomm I) (orthomat I) (m.filter p) := reduced_prefix (reduced_commEq hred (commEq_filter p m hp (operatorList I).nc_symm))
  have hfr : InRange I (m.filter p) := fun x hx => hmr x (List.mem_filter.1 hx).1
  have hfw : InRange I (w.filter p) := fun x hx => hwr x (List.mem_filter.1 hx).1
  by_cases hwe : w.filter p = []
  · refine ⟨[], hnil, ?_⟩
    have : m.filter p = [] := by
      have := (hperm.filter p)
      rw [hwe] at this
      exact List.perm_nil.1 this
    rw [this]
    exact .refl _
  have hcan : toCanonical (notcomm I) (orthomat I) (allCommute I) false (w.filter p) = lexmonToCanonical (notcomm I) (m.filter p) := by
    rw [← canonAny hredp (fun h => commuting_none h) false, canonC_eq (fun h => commuting_none h), canonC_eq (fun h => commuting_none h)]
    exact (C03_canonical_decides_operator_equality (operatorList I) _ _ hfw hfr).2 hkeep
  have hce := canon_sound (notcomm I) (m.filter p)
  refine ⟨_, Columns.mem_cols.2 ⟨(w.filter p).map (partyOf I.scenario), ?_, .inr ⟨by simpa using hwe, w.filter p, ?_, rfl, ?_, ?_⟩⟩, hkeep.symm.trans (canonical_opEq false hfw)⟩
  · refine hs b hb _ ?_
    rw [← hpm.2.1]
    exact List.filter_sublist.map _
  · exact mem_product_of fun x hx => hpm.2.2 x (List.mem_filter.1 hx).1
  · intro e
    have e' : toCanonical (notcomm I) (orthomat I) (allCommute I) false (w.filter p) = [0] := e
    rw [hcan] at e'
    exact hm0 (List.mem_filter.1 (hce.perm.mem_iff.2 (by rw [e']; simp))).1
  · show (toCanonical (notcomm I) (orthomat I) (allCommute I) false (w.filter p)).length = _
    rw [hcan, ← hce.perm.length_eq, List.length_map]
    exact (hperm.filter p).length_eq

theorem npa_subClosed (n maxLen : Nat) : SubClosed I (specCols I (npaSpecs I.scenario.nParties n maxLen)) := by
  refine specCols_subClosed fun b hb b' hb' => ?_
  obtain ⟨h1, h2, h3⟩ := Columns.mem_npaSpecs.1 hb
  exact Columns.mem_npaSpecs.2 ⟨h1.sublist hb', fun q hq => h2 q (hb'.subset hq), hb'.length_le.trans h3⟩

theorem local_subClosed {lengths : List Nat} (hl : lengths.length = I.scenario.nParties) (maxLen : Nat) : SubClosed I (specCols I (localSpecs I.scenario.nParties lengths maxLen)) := by
  refine specCols_subClosed fun b hb b' hb' => ?_
  obtain ⟨h1, h2, h3, h4⟩ := (Columns.mem_localSpecs hl).1 hb
  exact (Columns.mem_localSpecs hl).2 ⟨h1.sublist hb', fun q hq => h2 q (hb'.subset hq), fun q hq => (hb'.count_le q).trans (h3 q hq), hb'.length_le.trans h4⟩

theorem physical_subClosed (hout : HasOutcomes I) (maxLen : Nat) (caps : List (Option Nat)) : SubClosed I (physicalCols I maxLen caps) := by
  intro m hm p _
  have h := (C69_physical_columns hout maxLen caps m).1 hm
  have hsub : (m.filter p).Sublist m := List.filter_sublist
  refine ⟨m.filter p, (C69_physical_columns hout maxLen caps _).2 ⟨h.sorted.sublist hsub, fun x hx => h.letters x (hsub.subset hx), h.together.sublist hsub, ?_, ?_⟩, .refl _⟩
  · exact h.within.length.imp id fun h => hsub.length_le.trans h
  · exact fun q c hq => ((hsub.map _).count_le q).trans (h.within.party q c hq)

/-- **C76, no exceptions**: `set_distribution(shared_randomness=True)` raises no exception for a mixture of distributions of classical causal models, whatever the generating set. -/
theorem C76_mixture_raises_nothing {ι : Type} {s : Finset ι} {q : ι → Rat} {P : ι → List Nat → Rat} (hI : I.Accepted) (hD : WellFormed I.D) (hs : HasSources I.D) (hch : UsualChoice ch I)
    (hV : Setup I cols ch name B) (hone : [] ∈ cols) {Λ : ι → Type} [∀ k, Fintype (Λ k)] (M : ∀ k, CausalModel I.D I.outcomes I.priv (Λ k) ℝ)
    (hP : ∀ k ∈ s, (M k).Generates fun t => ((P k t : Rat) : ℝ)) (hq0 : ∀ k ∈ s, 0 ≤ q k) (hq : ∑ k ∈ s, q k = 1) {c : Call Mon} (hc : setDistribution I B (mix s q P) false true = some c)
    (solver : Args → SolverOut) : SdpState.Ok B.env solver [c] :=
  ok_of_fulfils hV hc (fulfils_mixed hch hV hq0 hq (r := fun _ => 0) fun k hk =>
    fulfils_of_model hV hone (inflated hI hD hs (M k)) (classical_realises hI _ _ (toClassical_realises hI hD (M k) (hP k hk))) fun m _ => classical_nonneg hI _ _ m) solver

/-- **C76, mixtures in closed programs.** For a closed generating set containing the identity: a mixture of distributions of classical causal models is accepted with `shared_randomness=True` without an exception, the arguments of the solver
can be prepared whatever calls of `set_objective` and `solve` follow, and the program is satisfied by the mixture of the values of the models. -/
theorem C76_closed_sets_not_excluded {ι : Type} {s : Finset ι} {q : ι → Rat} {P : ι → List Nat → Rat} (hI : I.Accepted) (hD : WellFormed I.D) (hs : HasSources I.D) (hch : UsualChoice ch I)
    (hV : Setup I cols ch name B) (hone : [] ∈ cols) (hcl : SubClosed I cols) {Λ : ι → Type} [∀ k, Fintype (Λ k)] (M : ∀ k, CausalModel I.D I.outcomes I.priv (Λ k) ℝ)
    (hP : ∀ k ∈ s, (M k).Generates fun t => ((P k t : Rat) : ℝ)) (hq0 : ∀ k ∈ s, 0 ≤ q k) (hq : ∑ k ∈ s, q k = 1) :
    ∃ c, setDistribution I B (mix s q P) false true = some c ∧ (∀ solver, SdpState.Ok B.env solver [c]) ∧ ∀ (solver : Args → SolverOut) (l : List (Call Mon)), (∀ c ∈ l, Later c) →
      ∃ a, SdpState.solverArgs B.env (SdpState.run B.env solver (c :: l)) = some a ∧
        (solverInput cols.length B a).Solves false (mixed s q fun k => values (inflated hI hD hs (M k))) 0 := by
  obtain ⟨c, hc, h⟩ := C76_models_not_excluded hI hD hs hch hV hone M hP hq0 hq
  refine ⟨c, hc, C76_mixture_raises_nothing hI hD hs hch hV hone M hP hq0 hq hc, fun solver l hl => ?_⟩
  obtain ⟨a, ha⟩ := C76_closed_sets_solvable hch hV hone hcl hc hl solver
  exact ⟨a, ha, h solver l a hl ha⟩

/-- What C76 promises of a generating set: the program is built, `set_distribution` raises no exception for mixtures of distributions of classical causal models, and no such mixture is excluded with `shared_randomness=True`. -/
def MixturesAllowed (I : EndToEnd.Input) (ch : Choice) (name : Atom → String) (cols : List (List Nat)) : Prop :=
  ∃ B, build I cols ch name = some B ∧ ∀ (n : Nat) (q : Fin n → Rat) (P : Fin n → List Nat → Rat), (∀ k, 0 ≤ q k) → ∑ k, q k = 1 →
    (∀ k, ∃ (Λ : Type) (_ : Fintype Λ) (M : CausalModel I.D I.outcomes I.priv Λ ℝ), M.Generates fun t => ((P k t : Rat) : ℝ)) →
    ∃ c, setDistribution I B (mix Finset.univ q P) false true = some c ∧ (∀ solver, SdpState.Ok B.env solver [c]) ∧ ∀ (solver : Args → SolverOut) (l : List (Call Mon)), (∀ c ∈ l, Later c) →
      ∃ a, SdpState.solverArgs B.env (SdpState.run B.env solver (c :: l)) = some a ∧ ∃ v, (solverInput cols.length B a).Solves false v 0

theorem mixturesAllowed_of (hI : I.Accepted) (hD : WellFormed I.D) (hs : HasSources I.D) (hch : UsualChoice ch I) (hV : Setup I cols ch name B) (hone : [] ∈ cols) (hcl : SubClosed I cols) :
    MixturesAllowed I ch name cols := by
  refine ⟨B, hV.built, fun n q P hq0 hq hM => ?_⟩
  choose Λ F M hM using hM
  obtain ⟨c, hc, hok, h⟩ := C76_closed_sets_not_excluded hI hD hs hch hV hone hcl M (fun k _ => hM k) (fun k _ => hq0 k) hq
  refine ⟨c, hc, hok, fun solver l hl => ?_⟩
  obtain ⟨a, ha, hv⟩ := h solver l hl
  exact ⟨a, ha, _, hv⟩

/-- The program of a list of products of parties, for a network. -/
theorem spec_setup (hch : UsualChoice ch I) (hch' : ch.Computed I) (name : Atom → String) (hS : copiesOf I.scenario ≤ 254) (hnet : I.isNetwork = true) {specs : List (List Nat)} (h : specs.count [] ≤ 1) :
    ∃ B, Setup I (specCols I specs) ch name B := by
  obtain ⟨B, hB⟩ := C68_products_of_parties hch name hS (.inl hnet) specs h
  exact ⟨B, specCols_ok h, hS, hch', hB, equalitiesProper_of_network hnet _ _⟩

/-- **C76, the NPA levels.** For every network and level `build_columns("npa{n}", max_monomial_length)`. -/
theorem C76_npa_levels (hI : I.Accepted) (hD : WellFormed I.D) (hs : HasSources I.D) (hch : UsualChoice ch I) (hch' : ch.Computed I) (name : Atom → String) (hS : copiesOf I.scenario ≤ 254) (hnet : I.isNetwork = true)
    (n maxLen : Nat) : MixturesAllowed I ch name (specCols I (npaSpecs I.scenario.nParties n maxLen)) := by
  obtain ⟨B, hV⟩ := spec_setup hch hch' name hS hnet (specs := npaSpecs I.scenario.nParties n maxLen) (by rw [Columns.count_npaSpecs])
  exact mixturesAllowed_of hI hD hs hch hV (Columns.mem_cols.2 ⟨[], by simp [npaSpecs], .inl ⟨rfl, rfl⟩⟩) (npa_subClosed n maxLen)

/-- **C76, the local levels.** -/
theorem C76_local_levels (hI : I.Accepted) (hD : WellFormed I.D) (hs : HasSources I.D) (hch : UsualChoice ch I) (hch' : ch.Computed I) (name : Atom → String) (hS : copiesOf I.scenario ≤ 254) (hnet : I.isNetwork = true)
    {lengths : List Nat} (hl : lengths.length = I.scenario.nParties) (maxLen : Nat) : MixturesAllowed I ch name (specCols I (localSpecs I.scenario.nParties lengths maxLen)) := by
  obtain ⟨B, hV⟩ := spec_setup hch hch' name hS hnet (specs := localSpecs I.scenario.nParties lengths maxLen) (Columns.count_localSpecs hl)
  refine mixturesAllowed_of hI hD hs hch hV (Columns.mem_cols.2 ⟨[], ?_, .inl ⟨rfl, rfl⟩⟩) (local_subClosed hl maxLen)
  exact (Columns.mem_localSpecs hl).2 ⟨.nil, by simp, by simp, by simp⟩

/-- **C76, the physical levels.** -/
theorem C76_physical_levels (hout : HasOutcomes I) (hI : I.Accepted) (hD : WellFormed I.D) (hs : HasSources I.D) (hch : UsualChoice ch I) (hch' : ch.Computed I) (name : Atom → String) (hS : copiesOf I.scenario ≤ 254)
    (hnet : I.isNetwork = true) (maxLen : Nat) (caps : List (Option Nat)) : MixturesAllowed I ch name (physicalCols I maxLen caps) := by
  obtain ⟨B, hB⟩ := C68_relaxation_generated hch name hS (C69_columns_suit_moment_matrix hout maxLen caps) (C69_closed hout maxLen caps) (.inl hnet)
  exact mixturesAllowed_of hI hD hs hch ⟨C69_columns_suit_moment_matrix hout _ _, hS, hch', hB, equalitiesProper_of_network hnet _ _⟩ (C69_unit hout _ _) (physical_subClosed hout maxLen caps)

end Verif.Mixture

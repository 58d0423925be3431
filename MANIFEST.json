{
 "claims": [
  {
   "property": "C01",
   "status": "proved",
   "theorems": [
    "Verif.Canon.C01_canonical_preserves_operator",
    "Verif.Canon.C01_commutations_only_preserves_operator",
    "Verif.Canon.C01_commuting_preserves_operator"
   ],
   "note": "Soundness of the canonical form for every word, over the operator congruence generated by commutation, idempotence and orthogonality."
  },
  {
   "property": "C02",
   "status": "proved",
   "theorems": [
    "Verif.Canon.C02_canonical_decides_commutation"
   ],
   "note": "Completeness and soundness for the commutation-only form."
  },
  {
   "property": "C03",
   "status": "proved",
   "theorems": [
    "Verif.Canon.C03_canonical_decides_operator_equality",
    "Verif.Canon.C03_canonical_detects_zero",
    "Verif.Scenario.C03_every_scenario"
   ],
   "note": "Both for abstract operator lists and for the list/matrices built for any problem (C03_every_scenario)."
  },
  {
   "property": "C04",
   "status": "proved",
   "theorems": [
    "Verif.Canon.C04_canonical_is_lex_least",
    "Verif.Canon.C04_canonical_idempotent"
   ],
   "note": ""
  },
  {
   "property": "C05",
   "status": "proved",
   "theorems": [
    "Verif.Canon.C05_commuting_shortcut_agrees"
   ],
   "note": ""
  },
  {
   "property": "C06",
   "status": "proved",
   "theorems": [
    "Verif.Scenario.C06_noncommuting_iff",
    "Verif.Scenario.C06_matrix",
    "Verif.Scenario.C06_outcome_blind"
   ],
   "note": ""
  },
  {
   "property": "C07",
   "status": "proved",
   "theorems": [
    "Verif.Cliques.C07_all_cliques",
    "Verif.Cliques.C07_listed_once_in_order"
   ],
   "note": ""
  },
  {
   "property": "C08",
   "status": "proved",
   "theorems": [
    "Verif.Cliques.C08_maximal_cliques",
    "Verif.Cliques.C08_empty_graph_not_reported",
    "Verif.Cliques.C08_cutoff_unreliable",
    "Verif.Cliques.C08_not_isolated"
   ],
   "note": ""
  },
  {
   "property": "C09",
   "status": "proved",
   "theorems": [
    "Verif.Components.C09_factorization",
    "Verif.Components.C09_factors_independent",
    "Verif.Components.C09_capacity_of_length"
   ],
   "note": ""
  },
  {
   "property": "C10",
   "status": "proved",
   "theorems": [
    "Verif.Components.C10_labels_faithful",
    "Verif.Components.C10_discrete_labels",
    "Verif.Components.C10_label_collision"
   ],
   "note": ""
  },
  {
   "property": "C11",
   "status": "proved",
   "theorems": [
    "Verif.Components.C11_flag_sound",
    "Verif.Components.C11_shortcut_agrees"
   ],
   "note": ""
  },
  {
   "property": "C12",
   "status": "proved",
   "theorems": [
    "Verif.Scenario.C12_lexorder_complete_nodup",
    "Verif.Scenario.C12_monomial_roundtrip",
    "Verif.Scenario.C12_compiled_lookup"
   ],
   "note": ""
  },
  {
   "property": "C13",
   "status": "proved",
   "theorems": [
    "Verif.Scenario.C13_effective_settings_bijective"
   ],
   "note": ""
  },
  {
   "property": "C14",
   "status": "proved",
   "theorems": [
    "Verif.Symmetry.C14_symmetries_are_relabellings",
    "Verif.Symmetry.C14_no_symmetry_missed",
    "Verif.Symmetry.C14_identity_first",
    "Verif.Symmetry.C14_count",
    "Verif.Symmetry.C14_rows_are_permutations",
    "Verif.Symmetry.C14_group",
    "Verif.Symmetry.C14_rows_nodup"
   ],
   "note": ""
  },
  {
   "property": "C15",
   "status": "proved",
   "theorems": [
    "Verif.Symmetry.C15_symmetry_preserves_commutation",
    "Verif.Symmetry.C15_symmetry_preserves_orthogonality",
    "Verif.Symmetry.C15_symmetry_preserves_canonical_equality"
   ],
   "note": ""
  },
  {
   "property": "C16",
   "status": "proved",
   "theorems": [
    "Verif.Orbits.C16_orbit_representative",
    "Verif.Orbits.C16_identified_iff_same_orbit"
   ],
   "note": ""
  },
  {
   "property": "C17",
   "status": "partial",
   "theorems": [
    "Verif.Orbits.C17_representative_history_independent",
    "Verif.Orbits.C17_order_leaks_without_inflation",
    "Verif.Orbits.C17_sorted_calls_history_independent_partial"
   ],
   "note": "Holds for inflated problems; refuted without inflation (C17_order_leaks_without_inflation), where it holds for calls with sorted arrays only."
  },
  {
   "property": "C18",
   "status": "proved",
   "theorems": [
    "Verif.MomentMatrix.C18_symmetric",
    "Verif.MomentMatrix.C18_zero_entries",
    "Verif.MomentMatrix.C18_entries_equal_iff",
    "Verif.MomentMatrix.C18_entries_consecutive",
    "Verif.MomentMatrix.C18_index_table"
   ],
   "note": ""
  },
  {
   "property": "C19",
   "status": "proved",
   "theorems": [
    "Verif.SymMM.C19_every_problem",
    "Verif.SymMM.C19_symmetrization",
    "Verif.SymMM.C19_numbering"
   ],
   "note": "For every matrix and group of column permutations acting consistently."
  },
  {
   "property": "C20",
   "status": "proved",
   "theorems": [
    "Verif.Knowable.C20_knowable_iff",
    "Verif.Knowable.C20_do_conditional_iff",
    "Verif.Knowable.C20_atomic_knowable_iff",
    "Verif.Knowable.C20_rectified"
   ],
   "note": ""
  },
  {
   "property": "C21",
   "status": "partial",
   "theorems": [
    "Verif.Positivity.C21_physical_nonneg_partial",
    "Verif.Positivity.C21_every_problem_partial",
    "Verif.Positivity.C21_false_with_latents"
   ],
   "note": "Proved for every problem without nonclassical intermediate latents; refuted with them (C21_false_with_latents)."
  },
  {
   "property": "C22",
   "status": "proved",
   "theorems": [
    "Verif.Marginal.C22_marginal_correct",
    "Verif.Marginal.C22_empty",
    "Verif.Marginal.C22_order_matters"
   ],
   "note": ""
  },
  {
   "property": "C23",
   "status": "proved",
   "theorems": [
    "Verif.Marginal.C23_settings_irrelevant",
    "Verif.Marginal.C23_value_any_settings",
    "Verif.Marginal.C23_sum_over_party"
   ],
   "note": ""
  },
  {
   "property": "C24",
   "status": "proved",
   "theorems": [
    "Verif.Moment.C24_order_irrelevant",
    "Verif.Moment.C24_equality",
    "Verif.Moment.C24_factors",
    "Verif.Moment.C24_status",
    "Verif.Moment.C24_sdp_equality"
   ],
   "note": ""
  },
  {
   "property": "C25",
   "status": "proved",
   "theorems": [
    "Verif.Moment.C25_evaluate_sound",
    "Verif.Moment.C25_remainder",
    "Verif.Moment.C25_status",
    "Verif.Moment.C25_known_precision"
   ],
   "note": ""
  },
  {
   "property": "C26",
   "status": "partial",
   "theorems": [
    "Verif.SdpState.C26_sdp_no_trace",
    "Verif.SdpState.C26_sdp_bounds_kept_partial",
    "Verif.SdpState.C26_sdp_bounds_lost",
    "Verif.State.C26_no_trace",
    "Verif.State.C26_support_bounds_accumulate",
    "Verif.State.C26_known_values",
    "Verif.State.C26_semiknown_values",
    "Verif.State.C26_semiknown_remainder_free"
   ],
   "note": "LP: no call leaves a trace for non-supports problems; refuted for supports problems, where lower bounds accumulate. Known and semi-known dictionaries are characterised exactly. SDP: values leave no trace (C26_sdp_no_trace), bounds keep their meaning through one call, but are lost over histories (C26_sdp_bounds_lost)."
  },
  {
   "property": "C27",
   "status": "partial",
   "theorems": [
    "Verif.SdpState.C27_sdp_disjoint",
    "Verif.SdpState.C27_sdp_overlap_after_error",
    "Verif.SdpState.C27_sdp_unit_known",
    "Verif.State.C27_disjoint",
    "Verif.State.C27_unit_known",
    "Verif.State.C27_supports_unit_lost"
   ],
   "note": "LP: disjoint for all histories; unit known for non-supports problems, refuted for supports problems. SDP: the same over histories without exceptions; refuted after an exception (C27_sdp_overlap_after_error)."
  },
  {
   "property": "C28",
   "status": "proved",
   "theorems": [
    "Verif.CollinsGisin.C28_no_spurious_solutions",
    "Verif.CollinsGisin.C28_every_problem",
    "Verif.CollinsGisin.C28_equalities_hold",
    "Verif.CollinsGisin.C28_inequalities_are_probabilities",
    "Verif.CollinsGisin.C28_inequalities_hold"
   ],
   "note": ""
  },
  {
   "property": "C29",
   "status": "partial",
   "theorems": [
    "Verif.LpSolver.C29_bounds_as_rows",
    "Verif.LpSolver.C29_dictionaries",
    "Verif.LpSolver.C29_dictionaries_accepted",
    "Verif.LpSolver.C29_bound_only_variable_raises",
    "Verif.LpSolver.C29_mixed_drops_equalities",
    "Verif.LpSolver.C29_inflation_problem",
    "Verif.LpSolver.C29_wellformed",
    "Verif.LpSolver.C29_primal_task",
    "Verif.LpSolver.C29_task_exists",
    "Verif.LpSolver.C29_empty_constraint_raises",
    "Verif.LpSolver.C29_weak_duality",
    "Verif.LpSolver.C29_dual_disagrees",
    "Verif.SdpState.C29_sdp_arguments_faithful",
    "Verif.SdpState.C29_sdp_set_upper",
    "Verif.SdpState.C29_sdp_set_lower",
    "Verif.State.C29_arguments_faithful"
   ],
   "note": "The task handed to MOSEK's LP solver has exactly the user's feasible set and objective (matrices, dictionaries, inflation problems; weak duality for the dual form). False in corner cases, proved as negations: the dual form disagrees for negative lower bounds (C29_dual_disagrees), matrix equalities are dropped when semi-known relations are a dictionary (C29_mixed_drops_equalities), empty rows raise (C29_empty_constraint_raises), bounds on otherwise unused variables raise."
  },
  {
   "property": "C30",
   "status": "partial",
   "theorems": [
    "Verif.LpSolver.C30_inflation_rows_imply_nonneg",
    "Verif.LpSolver.C30_relaxed_inequalities",
    "Verif.LpSolver.C30_relaxed_known_values",
    "Verif.LpSolver.C30_with_default_nonneg",
    "Verif.LpSolver.C30_dual_relaxed_inequalities",
    "Verif.LpSolver.C30_false_with_default_nonneg"
   ],
   "note": "Both relaxations are exact without default non-negativity, and for every inflation problem (C29_inflation_problem, C30_inflation_rows_imply_nonneg); refuted with default_non_negative in general (C30_false_with_default_nonneg)."
  },
  {
   "property": "C31",
   "status": "partial",
   "theorems": [
    "Verif.EndToEnd.C31_certificate_keys",
    "Verif.LpSolver.C31_certificate_valid",
    "Verif.LpSolver.C31_feasibility_certificate_valid",
    "Verif.LpSolver.C31_value_at_known",
    "Verif.LpSolver.C31_negative_is_incompatible",
    "Verif.LpSolver.C31_dictionary_close",
    "Verif.LpSolver.C31_false_with_bounds",
    "Verif.LpSolver.C31_false_with_known_objective",
    "Verif.LpSolver.C31_false_for_infeasible_with_objective",
    "Verif.SdpSolver.C31_sdp_certificate_bounds",
    "Verif.SdpSolver.C31_sdp_feasibility_certificate",
    "Verif.SdpSolver.C31_sdp_negative_is_incompatible",
    "Verif.SdpSolver.C31_sdp_dictionary_close",
    "Verif.SdpSolver.C31_sdp_false_with_known_objective"
   ],
   "note": "LP: proved for problems without bounds and with objectives on unknown moments, up to the 1e-8 threshold on the dictionary; refuted with bounds, with known moments in the objective, and for infeasible optimisations (C31_false_*). SDP: proved for all known values, both for optimisation and feasibility as optimisation; refuted when a known moment is both in the objective and in the moment matrix (C31_sdp_false_with_known_objective)."
  },
  {
   "property": "C32",
   "status": "partial",
   "theorems": [
    "Verif.SdpSolver.C32_dual_bounds_objective",
    "Verif.SdpSolver.C32_dual_bounds_feasibility",
    "Verif.SdpSolver.C32_same_solutions",
    "Verif.SdpSolver.C32_elimination_equivalent",
    "Verif.SdpSolver.C32_feasibility_as_optimisation",
    "Verif.SdpSolver.C32_accepted",
    "Verif.SdpSolver.C32_missing_semiknown_raises",
    "Verif.SdpSolver.C32_false_for_known_target",
    "Verif.SdpSolver.C32_false_for_chains"
   ],
   "note": "Proved exactly when semi-known moments are proportional to moments that are neither known nor semi-known, also for feasibility as optimisation; refuted otherwise (C32_false_for_known_target, C32_false_for_chains)."
  },
  {
   "property": "C33",
   "status": "partial",
   "theorems": [
    "Verif.SdpState.C33_sdp_extra_ignored",
    "Verif.SdpState.C33_sdp_extra_violated",
    "Verif.State.C33_lp_extra_reach_solver"
   ],
   "note": "True for the LP; false for the SDP for every history (C33_sdp_extra_ignored, C33_sdp_extra_violated)."
  },
  {
   "property": "C34",
   "status": "partial",
   "theorems": [
    "Verif.SdpRepr.C34_memo_correct_on_reduced_partial",
    "Verif.SdpRepr.C34_memo_correct_one_flag_partial",
    "Verif.SdpRepr.C34_flag_leaks",
    "Verif.SdpRepr.C34_repeated_zero"
   ],
   "note": "False in general (C34_flag_leaks, C34_repeated_zero); proved for reduced monomials and for histories with one flag."
  },
  {
   "property": "C35",
   "status": "partial",
   "theorems": [
    "Verif.State.C35_matrix_view_partial",
    "Verif.State.C35_view_by_name_stale",
    "Verif.State.C35_bounds_appended"
   ],
   "note": "The matrix view is faithful; the cached by-name view is stale (C35_view_by_name_stale) and is corrupted by reading (C35_bounds_appended)."
  },
  {
   "property": "C36",
   "status": "proved",
   "theorems": [
    "Verif.Certificates.C36_scaled_and_rounded",
    "Verif.Certificates.C36_signs",
    "Verif.Certificates.C36_fails_iff",
    "Verif.Certificates.C36_significant_kept",
    "Verif.Certificates.C36_zero_tolerance",
    "Verif.Certificates.C36_value_close",
    "Verif.Certificates.C36_idempotent",
    "Verif.Certificates.C36_small_not_chopped",
    "Verif.Certificates.C36_rounding_excludes_compatible"
   ],
   "note": "Proved for exact numbers (any ordered field with a floor): scaling, rounding error, signs, failure condition, significant coefficients kept, idempotence, effect on the value. Negations: C36_small_not_chopped, C36_rounding_excludes_compatible."
  },
  {
   "property": "C37",
   "status": "proved",
   "theorems": [
    "Verif.Optimize.C37_brackets_sign_change",
    "Verif.Optimize.C37_within_tolerance",
    "Verif.Optimize.C37_never_below",
    "Verif.Optimize.C37_converges",
    "Verif.Optimize.C37_certificate_at_value",
    "Verif.Optimize.C37_tolerance_dominates",
    "Verif.Optimize.C37_assertions_do_not_suffice"
   ],
   "note": "scipy.optimize.bisect is modelled after its C source; the program is an arbitrary oracle. Limits proved: C37_tolerance_dominates, C37_assertions_do_not_suffice."
  },
  {
   "property": "C38",
   "status": "proved",
   "theorems": [
    "Verif.Optimize.C38_safe_global",
    "Verif.Optimize.C38_safe_local",
    "Verif.Optimize.C38_bounds_decrease",
    "Verif.Optimize.C38_terminates",
    "Verif.Optimize.C38_raises_if_all_feasible",
    "Verif.Optimize.C38_missing_symbol_raises",
    "Verif.Optimize.C38_local_discards_feasible",
    "Verif.Optimize.C38_returns_weaker_bound"
   ],
   "note": "SLSQP is an arbitrary function assumed to find global or local maxima; negations C38_local_discards_feasible, C38_returns_weaker_bound, C38_raises_if_all_feasible."
  },
  {
   "property": "C39",
   "status": "partial",
   "theorems": [
    "Verif.Writers.C39_rows_partial",
    "Verif.Writers.C39_feasible_set_partial",
    "Verif.Writers.C39_bounds_on_one_line",
    "Verif.Writers.C39_bounds_iff",
    "Verif.Writers.C39_objective_partial",
    "Verif.Writers.C39_constant_objective_dropped",
    "Verif.Writers.C39_violated_constraint_dropped",
    "Verif.Writers.C39_mps_partial",
    "Verif.Writers.C39_mps_rounding_changes_problem",
    "Verif.Writers.C39_mps_negative_excluded",
    "Verif.Writers.C39_mps_bound_undeclared"
   ],
   "note": "Row and objective sections proved by reading the text back; the bound section of LP files is proved malformed whenever there is a bound (C39_bounds_iff); dropped violated constraints, dropped constant objectives, MPS rounding, implicit non-negativity and undeclared bounded variables are proved as negations."
  },
  {
   "property": "C40",
   "status": "partial",
   "theorems": [
    "Verif.Names.C40_moment_names",
    "Verif.Names.C40_bracket_name_reads_back",
    "Verif.Names.C40_probability_form_rejected",
    "Verif.Names.C40_do_form_rejected",
    "Verif.Names.C40_legacy_moment_names_partial",
    "Verif.Names.C40_legacy_moment_collision",
    "Verif.Names.C40_names_exist",
    "Verif.Names.C40_display_names_distinct",
    "Verif.Names.C40_copy_free_names",
    "Verif.Names.C40_legacy_names_distinct",
    "Verif.Names.C40_names_read_back",
    "Verif.Names.C40_copy_free_name_reads_first",
    "Verif.Names.C40_product_names",
    "Verif.Names.C40_compound_names",
    "Verif.Names.C40_to_name_injective"
   ],
   "note": "Proved: operator display, copy-free and legacy names are defined, distinct and read back (LP and SDP); names of atomic moments determine parties, settings, outcomes and do-values (also when do-values are hidden), to_name is injective, product names determine the factors with powers, <...> names are read back for every iteration order of the set. False of the code and proved so: P[...] names of two or more operators (and of one operator with do-values) are always rejected (factor_string[0:1] == 'P['), legacy moment names p(..|..) collide for longer party names. Positive part for one-character names only (_partial)."
  },
  {
   "property": "C41",
   "status": "partial",
   "theorems": [
    "Verif.Normalization.C41_column_equalities_hold",
    "Verif.Normalization.C41_index_equalities_hold",
    "Verif.Normalization.C41_moment_equality_partial",
    "Verif.Normalization.C41_single_outcome_raises",
    "Verif.Normalization.C41_every_problem",
    "Verif.Normalization.C41_equality_found_partial",
    "Verif.Normalization.C41_break_drops_equality",
    "Verif.Normalization.C41_every_row_covered",
    "Verif.Normalization.C41_search_never_raises",
    "Verif.Normalization.C41_expand_moment_holds",
    "Verif.Normalization.C41_expand_moment_complete",
    "Verif.Normalization.C41_equal_summands_wrong"
   ],
   "note": "Proved: every discovered column equality and every index equality holds in all models with complete measurements, end to end for every problem with the symmetrized matrix (C41_every_problem), no row forgotten, no exception, expand_moment_normalisation sound and complete. Partial: the dictionary handed to the solver is right only without coinciding moments and with at least two outcomes (C41_equal_summands_wrong, C41_single_outcome_raises); a `break` drops valid equalities (C41_break_drops_equality)."
  },
  {
   "property": "C42",
   "status": "partial",
   "theorems": [
    "Verif.Columns.C42_columns_canonical_nonzero",
    "Verif.Columns.C42_columns_distinct",
    "Verif.Columns.C42_columns_of_shape",
    "Verif.Columns.C42_products_present",
    "Verif.Columns.C42_npa_level",
    "Verif.Columns.C42_local_level",
    "Verif.Columns.C42_unit_first",
    "Verif.Columns.C42_columns_suit_moment_matrix",
    "Verif.Columns.C42_parties_commute",
    "Verif.Columns.C42_final_check",
    "Verif.Columns.C42_repeated_unit",
    "Verif.Columns.C42_npa_misses_products"
   ],
   "note": "Proved for every scenario with classical or no-latent commuting parties: the NPA and local column lists are exactly the canonical forms of the products of the stated shape, without repetition, unit first. A repeated [] in the specification produces a duplicate unit column (C42_repeated_unit); with non-commuting cross-party operators the NPA level misses products (C42_npa_misses_products)."
  },
  {
   "property": "C43",
   "status": "partial",
   "theorems": [
    "Verif.SdpState.C43_sdp_objective_partial",
    "Verif.SdpState.C43_sdp_stale_objective",
    "Verif.SdpState.C43_sdp_semiknown_raises",
    "Verif.SdpState.C43_sdp_semiknown_crash",
    "Verif.SdpState.C43_sdp_reported_optimum_partial",
    "Verif.State.C43_sanitise",
    "Verif.State.C43_lp_reported_optimum"
   ],
   "note": "LP proved. SDP: proved for histories without exceptions and reset('values'); refuted after reset('values') (C43_sdp_stale_objective); semi-known moments in the objective always raise (C43_sdp_semiknown_raises)."
  },
  {
   "property": "C44",
   "status": "partial",
   "theorems": [
    "Verif.SdpState.C44_sdp_up_to_date",
    "Verif.State.C44_up_to_date_partial",
    "Verif.State.C44_stale_after_extra"
   ],
   "note": "SDP: all histories. LP: every call but set_extra_*; refuted for these (C44_stale_after_extra)."
  },
  {
   "property": "C45",
   "status": "proved",
   "theorems": [
    "Verif.Scenario.C45_dag_tables",
    "Verif.Scenario.C45_table_symmetric"
   ],
   "note": ""
  },
  {
   "property": "C46",
   "status": "partial",
   "theorems": [
    "Verif.Positivity.C46_bounded_iff",
    "Verif.Positivity.C46_selfadjoint_nonneg",
    "Verif.Positivity.C46_bounded_nonneg_partial",
    "Verif.Positivity.C46_default_bound_excludes_model",
    "Verif.SdpEnd.C46_moments_nonneg"
   ],
   "note": "False in general: C46_default_bound_excludes_model gives a genuine quantum model excluded by the default bounds. C46_bounded_iff characterises the bounded moments exactly; positivity proved for moments selfadjoint by commutations and for problems without symmetries. C46_moments_nonneg: whenever every bounded moment is a product of words selfadjoint by commutations alone (BoundsSafe), the bounds hold in every quantum model of the inflated network."
  },
  {
   "property": "C47",
   "status": "partial",
   "theorems": [
    "Verif.SdpRepr.C47_representative_is_least",
    "Verif.SdpRepr.C47_same_representative_iff",
    "Verif.SdpRepr.C47_every_problem",
    "Verif.SdpRepr.C47_square_corrupts"
   ],
   "note": "Proved for reduced monomials and any history; refuted for monomials with squares (C47_square_corrupts)."
  },
  {
   "property": "C48",
   "status": "proved",
   "theorems": [
    "Verif.SdpState.C48_sdp_truth_preserved",
    "Verif.State.C48_truth_preserved",
    "Verif.State.C48_stale_semiknown"
   ],
   "note": "LP and SDP, all histories and all assignments; C48_stale_semiknown records what happens when values are replaced."
  },
  {
   "property": "C49",
   "status": "partial",
   "theorems": [
    "Verif.SdpSolver.C49_primal_matrix_partial",
    "Verif.SdpSolver.C49_dual_matrix_ignores_values",
    "Verif.SdpSolver.C49_dual_matrix_wrong"
   ],
   "note": "True for the primal formulation; false for the dual one, for every problem (C49_dual_matrix_ignores_values, C49_dual_matrix_wrong)."
  },
  {
   "property": "C50",
   "status": "partial",
   "theorems": [
    "Verif.Certificates.C50_sanitised_polynomial",
    "Verif.Certificates.C50_polynomial_value",
    "Verif.Certificates.C50_report_exact",
    "Verif.Certificates.C50_evaluate_close",
    "Verif.Certificates.C50_string_exact",
    "Verif.Certificates.C50_sdp_zero_string_raises",
    "Verif.Certificates.C50_constant_lost"
   ],
   "note": "Proved when different names denote different moments (always the case for LPs and for SDPs without non-zero bounds); refuted for SDPs with bounds (C50_constant_lost) and for printing empty certificates (C50_sdp_zero_string_raises)."
  },
  {
   "property": "C51",
   "status": "partial",
   "theorems": [
    "Verif.SdpWriter.C51_mat_constraints",
    "Verif.SdpWriter.C51_mat_objective",
    "Verif.SdpWriter.C51_mat_indices",
    "Verif.SdpWriter.C51_sdpa_written_iff",
    "Verif.SdpWriter.C51_sdpa_partial",
    "Verif.SdpWriter.C51_sdpa_in_range_partial",
    "Verif.SdpWriter.C51_readable_partial",
    "Verif.SdpWriter.C51_readable_objective",
    "Verif.SdpWriter.C51_readable_written",
    "Verif.SdpWriter.C51_false_readable_value",
    "Verif.SdpWriter.C51_false_readable_coefficient",
    "Verif.SdpWriter.C51_sdpa_sign_lost",
    "Verif.SdpWriter.C51_sdpa_negative_upper_unreadable",
    "Verif.SdpWriter.C51_sdpa_second_inequality_lost",
    "Verif.SdpWriter.C51_sdpa_direction",
    "Verif.SdpWriter.C51_sdpa_semiknown_bound_lost"
   ],
   "note": "SDPA: equivalence of the read-back file with the problem proved under the conditions Prob.Exportable, each of which is shown necessary by a proved negation except the tolerance 1e-8; the other direction of optimisation is proved as C51_sdpa_direction. MATLAB: what is passed to savemat says what the problem says (C51_mat_constraints, C51_mat_objective up to dropped coefficients of at most 1e-8, C51_mat_indices). Human-readable: at the level of terms, the table, bounds, constraints and objective say what the problem says (C51_readable_partial) under Prob.Readable; negations C51_false_readable_value and C51_false_readable_coefficient. Not modelled: savemat itself, and the characters of the human-readable file."
  },
  {
   "property": "C52",
   "status": "proved",
   "theorems": [
    "Verif.EndToEnd.C52_sources_table",
    "Verif.EndToEnd.C52_parents_table",
    "Verif.EndToEnd.C52_hypergraph_table",
    "Verif.EndToEnd.C52_dag_model_accepted",
    "Verif.EndToEnd.C52_distribution_accepted",
    "Verif.EndToEnd.C52_compatible_is_feasible",
    "Verif.EndToEnd.C52_primal_is_feasible",
    "Verif.EndToEnd.C52_dual_is_bounded",
    "Verif.EndToEnd.C52_relaxed_not_negative",
    "Verif.EndToEnd.C52_relaxed_known_is_zero"
   ],
   "note": "Hypotheses: no event of the inflation has more than 255 independent factors (the code's labels are 8-bit, C10); with linearised constraints no product of factors lies strictly between 0 and 1e-8 (the code records such products as known values); for the dual, lower bounds are not negative (C29). The construction is assumed to pass the code's own assertions (lpEnv returns a program). C52_dag_model_accepted states it for the graph as drawn (nodes and arrows; intermediate latents are deterministic functions of their parents, local randomness has to come from a parent; the code silently ignores an intermediate latent without parents)."
  },
  {
   "property": "C53",
   "status": "proved",
   "theorems": [
    "Verif.EndToEnd.C53_certificate_is_valid_inequality",
    "Verif.EndToEnd.C53_reported_certificate",
    "Verif.EndToEnd.C53_certificate_on_distribution",
    "Verif.EndToEnd.C53_negative_certificate_excludes"
   ],
   "note": "Same 255-factor hypothesis. With linearised constraints the certificate is only claimed for distributions with the same linearised constraints, and is not covered. C53_negative_certificate_excludes states it for the drawn graph: no causal model generates a distribution whose own certificate is below the tolerance."
  },
  {
   "property": "C54",
   "status": "proved",
   "theorems": [
    "Verif.SdpEnd.C54_primal_is_feasible",
    "Verif.SdpEnd.C54_dual_is_bounded",
    "Verif.SdpEnd.C54_feasibility_not_negative",
    "Verif.SdpEnd.C54_no_exception",
    "Verif.SdpEnd.C54_distribution_never_excluded"
   ],
   "note": "Hypotheses (structure Setup): the generating set consists of reduced words, at most 254 copies in total (the code's labels are 8-bit, C10), the construction passes the code's own assertions (build returns a program), no normalisation equality mentions a symmetrised moment twice (EqualitiesProper; otherwise the code's dictionary loses a multiplicity, see C41; automatic for networks), representatives are results of the memoised functions after some history. Linearised constraints are covered for histories under the hypothesis that no linearised constraint relates a moment to a determined one and that no product of factors is strictly between 0 and 1e-8."
  },
  {
   "property": "C55",
   "status": "proved",
   "theorems": [
    "Verif.SdpEnd.C55_certificate_is_valid",
    "Verif.SdpEnd.C55_feasibility_certificate_is_valid",
    "Verif.SdpEnd.C55_certificate_on_distribution",
    "Verif.SdpEnd.C55_negative_certificate_excludes"
   ],
   "note": "Hypotheses (structure Setup): the generating set consists of reduced words, at most 254 copies in total (the code's labels are 8-bit, C10), the construction passes the code's own assertions (build returns a program), no normalisation equality mentions a symmetrised moment twice (EqualitiesProper; otherwise the code's dictionary loses a multiplicity, see C41; automatic for networks), representatives are results of the memoised functions after some history. With linearised constraints the certificate is only claimed for distributions with the same constraints and is not covered."
  },
  {
   "property": "C56",
   "status": "partial",
   "theorems": [
    "Verif.QuantumNet.C56_quantum_network_never_excluded_partial",
    "Verif.QuantumNet.C56_quantum_network_uninflated_never_excluded",
    "Verif.SdpEnd.C56_false_up_to_symmetry",
    "Verif.SdpEnd.C56_distribution_accepted",
    "Verif.SdpEnd.C56_primal_is_feasible_partial",
    "Verif.SdpEnd.C56_dual_is_bounded_partial",
    "Verif.SdpEnd.C56_feasibility_not_negative_partial",
    "Verif.SdpEnd.C56_distribution_never_excluded_partial",
    "Verif.SdpEnd.C56_uninflated_never_excluded_partial",
    "Verif.SdpEnd.C56_no_exception_partial"
   ],
   "note": "Hypotheses (structure Setup): the generating set consists of reduced words, at most 254 copies in total (the code's labels are 8-bit, C10), the construction passes the code's own assertions (build returns a program), no normalisation equality mentions a symmetrised moment twice (EqualitiesProper; otherwise the code's dictionary loses a multiplicity, see C41; automatic for networks), representatives are results of the memoised functions after some history. Missing: the code bounds from below by 0 every moment it finds hermitian, also when hermiticity only holds up to relabelling of copies. C56_false_up_to_symmetry proves that the property then fails: a concrete quantum model of an inflated network has a moment of value -3/16 while the program's dual certifies that it is >= 0. The positive theorems assume BoundsSafe (all bounded moments are products of words selfadjoint by commutations alone), which is proved for commuting problems and for every problem without inflation symmetries (C56_uninflated_never_excluded_partial). The theorems with quantum_network in their name are for density matrices and local projective measurements with the Born rule (QuantumNet/): the inflation of such a network is constructed and proved to be a model of the inflated network that realises the network's distribution."
  },
  {
   "property": "C57",
   "status": "partial",
   "theorems": [
    "Verif.QuantumNet.C57_negative_certificate_excludes_quantum_networks_partial",
    "Verif.SdpEnd.C57_certificate_is_valid_partial",
    "Verif.SdpEnd.C57_feasibility_certificate_is_valid_partial",
    "Verif.SdpEnd.C57_certificate_on_distribution_partial",
    "Verif.SdpEnd.C57_negative_certificate_excludes_partial"
   ],
   "note": "Same hypotheses as C56 (Setup and BoundsSafe); C56_false_up_to_symmetry is also a certificate violated by a quantum model. The theorems with quantum_network in their name are for density matrices and local projective measurements with the Born rule (QuantumNet/): the inflation of such a network is constructed and proved to be a model of the inflated network that realises the network's distribution."
  },
  {
   "property": "C58",
   "status": "proved",
   "theorems": [
    "Verif.QuantumNet.C58_quantum_network_never_excluded",
    "Verif.Theory.C58_distribution_accepted",
    "Verif.Theory.C58_compatible_is_feasible",
    "Verif.Theory.C58_primal_is_feasible",
    "Verif.Theory.C58_dual_is_bounded",
    "Verif.Theory.C58_relaxed_not_negative",
    "Verif.Theory.C58_relaxed_known_is_zero"
   ],
   "note": "Hypotheses: no event of the inflation has more than 255 independent factors (C10); with linearised constraints no product of factors lies strictly between 0 and 1e-8; the construction passes the code's own assertions (lpEnv returns a program); for the dual, lower bounds are not negative (C29). A theory is any assignment of probabilities to joint events of compatible measurements (Theory/Spec.lean). C58_quantum_network_never_excluded is the instance for density matrices and projective measurements with the Born rule (QuantumNet/Spec.lean). Intermediate latents of quantum networks are treated as in the code: their children get the systems of the sources above them. Witnesses: Popescu-Rohrlich boxes (CHSH value 4), a two-qubit network with CHSH value 14/5."
  },
  {
   "property": "C59",
   "status": "proved",
   "theorems": [
    "Verif.QuantumNet.C59_quantum_network_certificate",
    "Verif.Theory.C59_certificate_is_valid_inequality",
    "Verif.Theory.C59_reported_certificate"
   ],
   "note": "Same hypotheses as C58, without linearised constraints, bounds or objective. Witness: a signalling distribution with certificate -1."
  },
  {
   "property": "C60",
   "status": "partial",
   "theorems": [
    "Verif.Sanitise.C60_bracket_name_reads_as_ranks",
    "Verif.Sanitise.C60_name_reads_back",
    "Verif.Sanitise.C60_names_differ",
    "Verif.Sanitise.C60_monomials_in_table",
    "Verif.Sanitise.C60_result_has_name",
    "Verif.Sanitise.C60_ranks_value_partial",
    "Verif.Sanitise.C60_relabelled_ranks_partial",
    "Verif.Sanitise.C60_column_ranks_partial",
    "Verif.Sanitise.C60_rows_read_as_ranks",
    "Verif.Sanitise.C60_numbers",
    "Verif.Sanitise.C60_symbol_reads_back",
    "Verif.Sanitise.C60_false_product_of_names",
    "Verif.Sanitise.C60_false_symbolic_power",
    "Verif.Sanitise.C60_ranks_wrap",
    "Verif.Sanitise.C60_false_many_operators"
   ],
   "note": "Names and symbols are proved to read back for every reachable table (party names must not contain separators or brackets). Lists of operators are proved correct when the integer type of the problem can count the operators (RanksFit) and there are at most 254 copies of sources. False in general: with more operators than the integer type of settings, outcomes, parties and levels can count, rows and bracketed names denote a different operator (C60_false_many_operators, C60_ranks_wrap); products of names or of symbols that are not in the table denote the joint event of all operators, so P[A=0]*P[B=0] is read as P[A=0 B=0] and P[A=0]**2 as P[A=0] (C60_false_product_of_names, C60_false_symbolic_power). SymPy sums and numerical factors are not modelled."
  },
  {
   "property": "C61",
   "status": "proved",
   "theorems": [
    "Verif.Distinct.C61_construction_succeeds",
    "Verif.Distinct.C61_factors_are_moments",
    "Verif.Distinct.C61_set_distribution_succeeds",
    "Verif.Distinct.C61_solve_reaches_solver",
    "Verif.Distinct.C61_false_empty_constraint",
    "Verif.Distinct.C61_pipeline_classical",
    "Verif.Distinct.C61_pipeline_theory",
    "Verif.Distinct.C61_pipeline_quantum"
   ],
   "note": "At most 254 copies of sources in total (beyond 255 independent factors the labels of components overflow, C10). C61_false_empty_constraint proves the exception: trivial user constraints make solve raise. The pipelines are stated without linearised constraints; with them, C52_dag_model_accepted needs that no product of known values is below 1e-8."
  },
  {
   "property": "C62",
   "status": "partial",
   "theorems": [
    "Verif.Views.C62_export",
    "Verif.Views.C62_file_rows_partial",
    "Verif.Views.C62_file_of_accepted_partial",
    "Verif.Views.C62_rectification_adds_free_variable",
    "Verif.Views.C62_absorbed_bounds_by_name_partial",
    "Verif.Views.C62_views_up_to_date",
    "Verif.Views.C62_absorbed_bounds",
    "Verif.Views.C62_equalities_by_moment",
    "Verif.Views.C62_inequalities_by_moment",
    "Verif.Views.C62_named_problem",
    "Verif.Views.C62_false_absorbed_unit_bound"
   ],
   "note": "Partial because the property is false in two corners: bounds on the unit absorbed by name (C62_false_absorbed_unit_bound), and constraints among known values and bounds are not in the file (C39). Stale cached lists are excluded by hypothesis (C35_view_by_name_stale); C62_views_up_to_date says when they are fresh. C62_rectification_adds_free_variable: the treatment of unnormalised problems only adds an unused variable."
  },
  {
   "property": "C63",
   "status": "proved",
   "theorems": [
    "Verif.Factorised.C63_conditions",
    "Verif.Factorised.C63_quadratic",
    "Verif.Factorised.C63_hold_classical",
    "Verif.Factorised.C63_hold_theory",
    "Verif.Factorised.C63_hold_quantum",
    "Verif.Factorised.C63_by_name"
   ],
   "note": "C63_conditions and C63_quadratic give existence and shape in every reachable table, C63_hold_classical/_theory/_quantum the validity by column numbers, C63_by_name the named versions."
  },
  {
   "property": "C64",
   "status": "proved",
   "theorems": [
    "Verif.Search.C64_bisection_excludes_classical",
    "Verif.Search.C64_bisection_not_below_classical",
    "Verif.Search.C64_bisection_excludes_theories",
    "Verif.Search.C64_bisection_not_below_theories",
    "Verif.Search.C64_distributions_agree",
    "Verif.Search.C64_quantum_distributions_agree",
    "Verif.Search.C64_search_is_stateless",
    "Verif.Search.C64_certificates_not_below_classical",
    "Verif.Search.C64_certificates_not_below_theories",
    "Verif.Search.C64_certificates_local_not_below_classical",
    "Verif.Search.C64_certificates_local_not_below_theories",
    "Verif.Search.C64_pending_minimisation_raises",
    "Verif.Search.C64_extra_constraints_ignored"
   ],
   "note": "C64_bisection_*, C64_certificates_* (global and local inner optimisation), C64_search_is_stateless, C64_distributions_agree link it to set_distribution. The solver is trusted as stated in Trusted and TrustedCertificate; a pending direction `min` makes the search raise (C64_pending_minimisation_raises)."
  },
  {
   "property": "C65",
   "status": "partial",
   "theorems": [
    "Verif.Optimum.C65_lp_bound_classical",
    "Verif.Optimum.C65_lp_bound_theories",
    "Verif.Optimum.C65_lp_functional_classical",
    "Verif.Optimum.C65_lp_functional_theories",
    "Verif.Optimum.C65_lp_functional_quantum_networks",
    "Verif.Optimum.C65_lp_written_bound_partial",
    "Verif.Optimum.C65_sdp_bound_operators_partial",
    "Verif.Optimum.C65_sdp_bound_classical_partial",
    "Verif.Optimum.C65_sdp_written_operators_partial",
    "Verif.Optimum.C65_sdp_written_quantum_networks_partial",
    "Verif.Optimum.C65_sdp_written_classical_partial",
    "Verif.Optimum.C65_sdp_functional_classical",
    "Verif.Optimum.C65_sdp_functional_quantum_networks_partial",
    "Verif.Optimum.C65_sdp_functional_quantum_uninflated"
   ],
   "note": "Full for functionals of distributions: C65_lp_functional_* and C65_sdp_functional_classical, C65_sdp_functional_quantum_uninflated, and for C65_lp_bound_* in general. Missing: in the semidefinite program the non-negativity of physical moments must hold (BoundsSafe; false in general, C46) for quantum models, and histories with reset(\"values\") are excluded (C43); written linear-program objectives need ranks that fit the integer type (RanksFit). The solver is trusted as stated in TrustedLp, TrustedSdp."
  },
  {
   "property": "C66",
   "status": "partial",
   "theorems": [
    "Verif.SdpSearch.C66_bisection_excludes_operators_partial",
    "Verif.SdpSearch.C66_bisection_excludes_classical",
    "Verif.SdpSearch.C66_distributions_agree",
    "Verif.SdpSearch.C66_bisection_excludes_classical_distributions",
    "Verif.SdpSearch.C66_bisection_excludes_quantum_distributions_partial",
    "Verif.SdpSearch.C66_bisection_excludes_quantum_uninflated",
    "Verif.SdpSearch.C66_bisection_not_below_classical",
    "Verif.SdpSearch.C66_bisection_not_below_quantum_partial",
    "Verif.SdpSearch.C66_certificates_not_below_operators_partial",
    "Verif.SdpSearch.C66_certificates_not_below_classical",
    "Verif.SdpSearch.C66_no_objective_is_bare",
    "Verif.SdpSearch.C66_search_leaves_a_trace"
   ],
   "note": "Full for classical models, and for quantum networks without inflation. Missing: for quantum networks with inflation and for operator models the default lower bounds of the code must hold (BoundsSafe; false in general, C46); linearised constraints (use_lpi) are excluded. C66_search_leaves_a_trace: the search changes the program for good (set_values deletes default lower bounds). Solver and certificate are trusted as stated in Trusted, TrustedCertificate; different moments are assumed to have different names (NamesDiffer)."
  },
  {
   "property": "C67",
   "status": "partial",
   "theorems": [
    "Verif.SdpNames.C67_name_reads_back",
    "Verif.SdpNames.C67_names_differ",
    "Verif.SdpNames.C67_moments_of_the_program",
    "Verif.SdpNames.C67_certificate_names",
    "Verif.SdpNames.C67_search_with_program_names"
   ],
   "note": "Full for names of moments of the table. Restrictions: representatives are only asked for words that cannot be simplified (as the moment matrix and the readers do); what is done with a string that is not in the table is a parameter (split); at most 254 copies of a source. The name is not a function of the moment: adjoint copies keep the legacy name and symbol of the original and get a display name of their own, so the theorem is stated for every name a moment can have (MomentNamed)."
  },
  {
   "property": "C68",
   "status": "partial",
   "theorems": [
    "Verif.Generate.C68_relaxation_generated",
    "Verif.Generate.C68_products_of_parties",
    "Verif.Generate.C68_npa_level",
    "Verif.Generate.C68_local_level",
    "Verif.Generate.C68_distribution_never_excluded",
    "Verif.Generate.C68_false_for_lopsided_columns",
    "Verif.Generate.C68_false_for_one_outcome"
   ],
   "note": "Proved for every generating set preserved by the relabellings of copies, in particular all NPA and local levels. False in two corner cases, proved: generating sets given by hand that are not preserved (C68_false_for_lopsided_columns) and parties with children and a single outcome (C68_false_for_one_outcome)."
  },
  {
   "property": "C69",
   "status": "partial",
   "theorems": [
    "Verif.Physical.C69_physical_columns",
    "Verif.Physical.C69_columns_suit_moment_matrix",
    "Verif.Physical.C69_unit",
    "Verif.Physical.C69_every_product",
    "Verif.Physical.C69_closed",
    "Verif.Physical.C69_order",
    "Verif.Physical.C69_relaxation_generated",
    "Verif.Physical.C69_distribution_never_excluded",
    "Verif.Physical.C69_every_string",
    "Verif.Physical.C69_npa_string",
    "Verif.Physical.C69_levels_per_party",
    "Verif.Physical.C69_level_for_all_partial",
    "Verif.Physical.C69_two_digit_level_misread",
    "Verif.Physical.C69_capital_local"
   ],
   "note": "The physical columns, their closure and the relaxation are proved in full. Reading of names is partial: a level with as many digits as there are parties is read digit by digit (C69_two_digit_level_misread), and 'Local1' with a capital is accepted but gives the physical set (C69_capital_local)."
  },
  {
   "property": "C70",
   "status": "partial",
   "theorems": [
    "Verif.Linear.C70_false_for_other_values",
    "Verif.Linear.C70_separated",
    "Verif.Linear.C70_no_exception",
    "Verif.Linear.C70_never_excluded_partial",
    "Verif.Linear.C70_not_tiny",
    "Verif.Linear.C70_distribution_never_excluded"
   ],
   "note": "Proved in full for set_distribution and classical models of the graph (C70_distribution_never_excluded), with a condition on P alone (NotTiny; C70_not_tiny is a criterion). C70_never_excluded_partial: for models which are not classical the lower bounds 0 of moments found hermitian are a hypothesis (C46). Refuted for set_values with true values of moments that are not atoms (C70_false_for_other_values): the right side of a linearised constraint may have a value, and then the program is wrong."
  },
  {
   "property": "C71",
   "status": "partial",
   "theorems": [
    "Verif.Symbolic.C71_symbolic_columns",
    "Verif.Symbolic.C71_symbolic_round_trip_partial",
    "Verif.Symbolic.C71_expressions_differ",
    "Verif.Symbolic.C71_zero_is_not_read",
    "Verif.Symbolic.C71_words",
    "Verif.Symbolic.C71_arrays",
    "Verif.Symbolic.C71_single_array",
    "Verif.Symbolic.C71_blocks",
    "Verif.Symbolic.C71_levels_partial",
    "Verif.Symbolic.C71_numbers",
    "Verif.Symbolic.C71_named_atom",
    "Verif.Symbolic.C71_false_with_observed_parents"
   ],
   "note": "Exactly characterised by C71_symbolic_columns: the expressions are read back if and only if no operator of a party with observed parents occurs (in particular for all networks, C71_symbolic_round_trip_partial); refuted otherwise (C71_false_with_observed_parents: names with `|do(` are rejected by an assertion). Columns with the zero operator and lists with one array are not read (C71_zero_is_not_read, C71_single_array). SymPy is modelled as lists of factors with exponents."
  },
  {
   "property": "C72",
   "status": "proved",
   "theorems": [
    "Verif.Symbolic.C72_measurement_operators",
    "Verif.Symbolic.C72_shape",
    "Verif.Symbolic.C72_symbols_distinct",
    "Verif.Symbolic.C72_every_operator",
    "Verif.Symbolic.C72_products",
    "Verif.Symbolic.C72_generating_sets",
    "Verif.Symbolic.C72_levels"
   ],
   "note": "C72_measurement_operators (what an entry is), C72_shape (which entries exist), C72_symbols_distinct, C72_every_operator (all operators without the last outcome), C72_products, C72_generating_sets and C72_levels. C72_shape, C72_every_operator and C72_levels assume that every source has at least one copy (with no copies the list is empty)."
  },
  {
   "property": "C73",
   "status": "partial",
   "theorems": [
    "Verif.Listings.C73_commutators",
    "Verif.Listings.C73_each_pair_once",
    "Verif.Listings.C73_positions",
    "Verif.Listings.C73_entries",
    "Verif.Listings.C73_false_extra_entry"
   ],
   "note": "C73_commutators and C73_each_pair_once prove the claim about commutators, C73_positions and C73_entries the positions (for problems in which every party has a source, which the code requires). Refuted: lexicographic_order has one key too many, the row of the zero operator, which is printed as an operator of the last party with copies 0 (C73_false_extra_entry)."
  },
  {
   "property": "C74",
   "status": "partial",
   "theorems": [
    "Verif.Listings.C74_formats",
    "Verif.Listings.C74_default_partial",
    "Verif.Listings.C74_written_file",
    "Verif.Listings.C74_false_default"
   ],
   "note": "C74_formats, C74_written_file and C74_default_partial characterise all file names. Refuted for names without format in directories with dots, such as ./program (C74_false_default): an exception instead of the default."
  },
  {
   "property": "C75",
   "status": "proved",
   "theorems": [
    "Verif.Hierarchy.C75_closed_sets",
    "Verif.Hierarchy.C75_physical_levels",
    "Verif.Hierarchy.C75_physical_below_local",
    "Verif.Hierarchy.C75_larger_is_stronger",
    "Verif.Hierarchy.C75_stays_infeasible",
    "Verif.Hierarchy.C75_margin",
    "Verif.Hierarchy.C75_optimum",
    "Verif.Hierarchy.C75_products_of_parties",
    "Verif.Hierarchy.C75_npa_levels",
    "Verif.Hierarchy.C75_local_levels",
    "Verif.Hierarchy.C75_local_below_npa",
    "Verif.Hierarchy.C75_npa_below_local",
    "Verif.Hierarchy.C75_same_moment",
    "Verif.Hierarchy.C75_known_values"
   ],
   "note": "C75_larger_is_stronger with C75_stays_infeasible, C75_margin and C75_optimum for all generating sets with the identity; C75_products_of_parties, C75_npa_levels, C75_local_levels, C75_local_below_npa, C75_npa_below_local, C75_physical_levels and C75_physical_below_local have no assumption on the programs, for networks. When some party knows outcomes of others, the normalisation equalities of the smaller program are assumed to be among those of the larger one. The larger program may also be without the option shared_randomness when the smaller one has it. Without linearised constraints (use_lpi_constraints=False); the calls after set_distribution are set_objective and solve."
  },
  {
   "property": "C76",
   "status": "partial",
   "theorems": [
    "Verif.Mixture.C76_closed_sets_solvable",
    "Verif.Mixture.C76_mixture_raises_nothing",
    "Verif.Mixture.C76_closed_sets_not_excluded",
    "Verif.Mixture.C76_npa_levels",
    "Verif.Mixture.C76_local_levels",
    "Verif.Mixture.C76_physical_levels",
    "Verif.Mixture.C76_mixtures",
    "Verif.Mixture.C76_mixture_not_excluded",
    "Verif.Mixture.C76_mixture_accepted",
    "Verif.Mixture.C76_models_not_excluded",
    "Verif.Mixture.C76_option_is_weaker",
    "Verif.Mixture.C76_false_always_solved",
    "Verif.Mixture.C76_allowed_with_option"
   ],
   "note": "C76_mixtures and C76_mixture_not_excluded: convexity; C76_models_not_excluded: mixtures of the distributions of classical causal models, with C76_mixture_accepted (set_distribution accepts the mixture); C76_option_is_weaker: what satisfies the program without the option satisfies it with it. For the NPA, local and physical levels of networks (C76_npa_levels, C76_local_levels, C76_physical_levels: the program is built, the mixture accepted, the solver arguments prepared and satisfiable) and every generating set that contains the commuting parts of its words (C76_closed_sets_solvable, C76_closed_sets_not_excluded) nothing is assumed about the program; for these sets what satisfies the program without the option satisfies the one with it, with no assumption on the latter (C76_allowed_with_option). Partial because the option does not work for every generating set: C76_false_always_solved, with the generating set 1 and A1*A2 of two independent copies of an outcome, set_distribution(shared_randomness=True) gives a value to the atom A1, which is no moment, and `solve` fails with an AssertionError (InflationSDP.py 2143-2145), while without the option it works. set_distribution raises no exception for mixtures of distributions of models (C76_mixture_raises_nothing). The statements are about programs without linearised constraints. The examples have a mixture whose values satisfy the program with the option and not without it."
  }
 ]
}
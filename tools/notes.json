{
 "C01": {
  "note": "Soundness of the canonical form for every word, over the operator congruence generated by commutation, idempotence and orthogonality."
 },
 "C02": {
  "note": "Completeness and soundness for the commutation-only form."
 },
 "C03": {
  "note": "Both for abstract operator lists and for the list/matrices built for any problem (C03_every_scenario)."
 },
 "C17": {
  "status": "partial",
  "note": "Holds for inflated problems; refuted without inflation (C17_order_leaks_without_inflation), where it holds for calls with sorted arrays only."
 },
 "C19": {
  "note": "For every matrix and group of column permutations acting consistently."
 },
 "C08": {},
 "C21": {
  "status": "partial",
  "note": "Proved for every problem without nonclassical intermediate latents; refuted with them (C21_false_with_latents)."
 },
 "C34": {
  "status": "partial",
  "note": "False in general (C34_flag_leaks, C34_repeated_zero); proved for reduced monomials and for histories with one flag."
 },
 "C46": {
  "status": "partial",
  "note": "False in general: C46_default_bound_excludes_model gives a genuine quantum model excluded by the default bounds. C46_bounded_iff characterises the bounded moments exactly; positivity proved for moments selfadjoint by commutations and for problems without symmetries. C46_moments_nonneg: whenever every bounded moment is a product of words selfadjoint by commutations alone (BoundsSafe), the bounds hold in every quantum model of the inflated network."
 },
 "C47": {
  "status": "partial",
  "note": "Proved for reduced monomials and any history; refuted for monomials with squares (C47_square_corrupts)."
 },
 "C26": {
  "status": "partial",
  "note": "LP: no call leaves a trace for non-supports problems; refuted for supports problems, where lower bounds accumulate. Known and semi-known dictionaries are characterised exactly. SDP: values leave no trace (C26_sdp_no_trace), bounds keep their meaning through one call, but are lost over histories (C26_sdp_bounds_lost)."
 },
 "C27": {
  "status": "partial",
  "note": "LP: disjoint for all histories; unit known for non-supports problems, refuted for supports problems. SDP: the same over histories without exceptions; refuted after an exception (C27_sdp_overlap_after_error)."
 },
 "C29": {
  "status": "partial",
  "note": "The task handed to MOSEK's LP solver has exactly the user's feasible set and objective (matrices, dictionaries, inflation problems; weak duality for the dual form). False in corner cases, proved as negations: the dual form disagrees for negative lower bounds (C29_dual_disagrees), matrix equalities are dropped when semi-known relations are a dictionary (C29_mixed_drops_equalities), empty rows raise (C29_empty_constraint_raises), bounds on otherwise unused variables raise."
 },
 "C33": {
  "status": "partial",
  "note": "True for the LP; false for the SDP for every history (C33_sdp_extra_ignored, C33_sdp_extra_violated)."
 },
 "C35": {
  "status": "partial",
  "note": "The matrix view is faithful; the cached by-name view is stale (C35_view_by_name_stale) and is corrupted by reading (C35_bounds_appended)."
 },
 "C43": {
  "status": "partial",
  "note": "LP proved. SDP: proved for histories without exceptions and reset('values'); refuted after reset('values') (C43_sdp_stale_objective); semi-known moments in the objective always raise (C43_sdp_semiknown_raises)."
 },
 "C44": {
  "status": "partial",
  "note": "SDP: all histories. LP: every call but set_extra_*; refuted for these (C44_stale_after_extra)."
 },
 "C48": {
  "note": "LP and SDP, all histories and all assignments; C48_stale_semiknown records what happens when values are replaced."
 },
 "C30": {
  "status": "partial",
  "note": "Both relaxations are exact without default non-negativity, and for every inflation problem (C29_inflation_problem, C30_inflation_rows_imply_nonneg); refuted with default_non_negative in general (C30_false_with_default_nonneg)."
 },
 "C31": {
  "status": "partial",
  "note": "LP: proved for problems without bounds and with objectives on unknown moments, up to the 1e-8 threshold on the dictionary; refuted with bounds, with known moments in the objective, and for infeasible optimisations (C31_false_*). SDP: proved for all known values, both for optimisation and feasibility as optimisation; refuted when a known moment is both in the objective and in the moment matrix (C31_sdp_false_with_known_objective)."
 },
 "C32": {
  "status": "partial",
  "note": "Proved exactly when semi-known moments are proportional to moments that are neither known nor semi-known, also for feasibility as optimisation; refuted otherwise (C32_false_for_known_target, C32_false_for_chains)."
 },
 "C49": {
  "status": "partial",
  "note": "True for the primal formulation; false for the dual one, for every problem (C49_dual_matrix_ignores_values, C49_dual_matrix_wrong)."
 },
 "C36": {
  "note": "Proved for exact numbers (any ordered field with a floor): scaling, rounding error, signs, failure condition, significant coefficients kept, idempotence, effect on the value. Negations: C36_small_not_chopped, C36_rounding_excludes_compatible."
 },
 "C50": {
  "status": "partial",
  "note": "Proved when different names denote different moments (always the case for LPs and for SDPs without non-zero bounds); refuted for SDPs with bounds (C50_constant_lost) and for printing empty certificates (C50_sdp_zero_string_raises)."
 },
 "C37": {
  "note": "scipy.optimize.bisect is modelled after its C source; the program is an arbitrary oracle. Limits proved: C37_tolerance_dominates, C37_assertions_do_not_suffice."
 },
 "C38": {
  "note": "SLSQP is an arbitrary function assumed to find global or local maxima; negations C38_local_discards_feasible, C38_returns_weaker_bound, C38_raises_if_all_feasible."
 },
 "C39": {
  "status": "partial",
  "note": "Row and objective sections proved by reading the text back; the bound section of LP files is proved malformed whenever there is a bound (C39_bounds_iff); dropped violated constraints, dropped constant objectives, MPS rounding, implicit non-negativity and undeclared bounded variables are proved as negations."
 },
 "C41": {
  "status": "partial",
  "note": "Proved: every discovered column equality and every index equality holds in all models with complete measurements, end to end for every problem with the symmetrized matrix (C41_every_problem), no row forgotten, no exception, expand_moment_normalisation sound and complete. Partial: the dictionary handed to the solver is right only without coinciding moments and with at least two outcomes (C41_equal_summands_wrong, C41_single_outcome_raises); a `break` drops valid equalities (C41_break_drops_equality)."
 },
 "C42": {
  "status": "partial",
  "note": "Proved for every scenario with classical or no-latent commuting parties: the NPA and local column lists are exactly the canonical forms of the products of the stated shape, without repetition, unit first. A repeated [] in the specification produces a duplicate unit column (C42_repeated_unit); with non-commuting cross-party operators the NPA level misses products (C42_npa_misses_products)."
 },
 "C40": {
  "status": "partial",
  "note": "Proved: operator display, copy-free and legacy names are defined, distinct and read back (LP and SDP); names of atomic moments determine parties, settings, outcomes and do-values (also when do-values are hidden), to_name is injective, product names determine the factors with powers, <...> names are read back for every iteration order of the set. False of the code and proved so: P[...] names of two or more operators (and of one operator with do-values) are always rejected (factor_string[0:1] == 'P['), legacy moment names p(..|..) collide for longer party names. Positive part for one-character names only (_partial)."
 },
 "C51": {
  "status": "partial",
  "note": "SDPA: equivalence of the read-back file with the problem proved under the conditions Prob.Exportable, each of which is shown necessary by a proved negation except the tolerance 1e-8; the other direction of optimisation is proved as C51_sdpa_direction. MATLAB: what is passed to savemat says what the problem says (C51_mat_constraints, C51_mat_objective up to dropped coefficients of at most 1e-8, C51_mat_indices). Human-readable: at the level of terms, the table, bounds, constraints and objective say what the problem says (C51_readable_partial) under Prob.Readable; negations C51_false_readable_value and C51_false_readable_coefficient. Not modelled: savemat itself, and the characters of the human-readable file."
 },
 "C52": {
  "status": "proved",
  "note": "Hypotheses: no event of the inflation has more than 255 independent factors (the code's labels are 8-bit, C10); with linearised constraints no product of factors lies strictly between 0 and 1e-8 (the code records such products as known values); for the dual, lower bounds are not negative (C29). The construction is assumed to pass the code's own assertions (lpEnv returns a program). C52_dag_model_accepted states it for the graph as drawn (nodes and arrows; intermediate latents are deterministic functions of their parents, local randomness has to come from a parent; the code silently ignores an intermediate latent without parents)."
 },
 "C53": {
  "status": "proved",
  "note": "Same 255-factor hypothesis. With linearised constraints the certificate is only claimed for distributions with the same linearised constraints, and is not covered. C53_negative_certificate_excludes states it for the drawn graph: no causal model generates a distribution whose own certificate is below the tolerance."
 },
 "C54": {
  "status": "proved",
  "note": "Hypotheses (structure Setup): the generating set consists of reduced words, at most 254 copies in total (the code's labels are 8-bit, C10), the construction passes the code's own assertions (build returns a program), no normalisation equality mentions a symmetrised moment twice (EqualitiesProper; otherwise the code's dictionary loses a multiplicity, see C41; automatic for networks), representatives are results of the memoised functions after some history. Linearised constraints are covered for histories under the hypothesis that no linearised constraint relates a moment to a determined one and that no product of factors is strictly between 0 and 1e-8."
 },
 "C55": {
  "status": "proved",
  "note": "Hypotheses (structure Setup): the generating set consists of reduced words, at most 254 copies in total (the code's labels are 8-bit, C10), the construction passes the code's own assertions (build returns a program), no normalisation equality mentions a symmetrised moment twice (EqualitiesProper; otherwise the code's dictionary loses a multiplicity, see C41; automatic for networks), representatives are results of the memoised functions after some history. With linearised constraints the certificate is only claimed for distributions with the same constraints and is not covered."
 },
 "C56": {
  "status": "partial",
  "note": "Hypotheses (structure Setup): the generating set consists of reduced words, at most 254 copies in total (the code's labels are 8-bit, C10), the construction passes the code's own assertions (build returns a program), no normalisation equality mentions a symmetrised moment twice (EqualitiesProper; otherwise the code's dictionary loses a multiplicity, see C41; automatic for networks), representatives are results of the memoised functions after some history. Missing: the code bounds from below by 0 every moment it finds hermitian, also when hermiticity only holds up to relabelling of copies. C56_false_up_to_symmetry proves that the property then fails: a concrete quantum model of an inflated network has a moment of value -3/16 while the program's dual certifies that it is >= 0. The positive theorems assume BoundsSafe (all bounded moments are products of words selfadjoint by commutations alone), which is proved for commuting problems and for every problem without inflation symmetries (C56_uninflated_never_excluded_partial). The theorems with quantum_network in their name are for density matrices and local projective measurements with the Born rule (QuantumNet/): the inflation of such a network is constructed and proved to be a model of the inflated network that realises the network's distribution."
 },
 "C57": {
  "status": "partial",
  "note": "Same hypotheses as C56 (Setup and BoundsSafe); C56_false_up_to_symmetry is also a certificate violated by a quantum model. The theorems with quantum_network in their name are for density matrices and local projective measurements with the Born rule (QuantumNet/): the inflation of such a network is constructed and proved to be a model of the inflated network that realises the network's distribution."
 },
 "C58": {
  "status": "proved",
  "note": "Hypotheses: no event of the inflation has more than 255 independent factors (C10); with linearised constraints no product of factors lies strictly between 0 and 1e-8; the construction passes the code's own assertions (lpEnv returns a program); for the dual, lower bounds are not negative (C29). A theory is any assignment of probabilities to joint events of compatible measurements (Theory/Spec.lean). C58_quantum_network_never_excluded is the instance for density matrices and projective measurements with the Born rule (QuantumNet/Spec.lean). Intermediate latents of quantum networks are treated as in the code: their children get the systems of the sources above them. Witnesses: Popescu-Rohrlich boxes (CHSH value 4), a two-qubit network with CHSH value 14/5."
 },
 "C59": {
  "status": "proved",
  "note": "Same hypotheses as C58, without linearised constraints, bounds or objective. Witness: a signalling distribution with certificate -1."
 },
 "C60": {
  "status": "partial",
  "note": "Names and symbols are proved to read back for every reachable table (party names must not contain separators or brackets). Lists of operators are proved correct when the integer type of the problem can count the operators (RanksFit) and there are at most 254 copies of sources. False in general: with more operators than the integer type of settings, outcomes, parties and levels can count, rows and bracketed names denote a different operator (C60_false_many_operators, C60_ranks_wrap); products of names or of symbols that are not in the table denote the joint event of all operators, so P[A=0]*P[B=0] is read as P[A=0 B=0] and P[A=0]**2 as P[A=0] (C60_false_product_of_names, C60_false_symbolic_power). SymPy sums and numerical factors are not modelled."
 },
 "C61": {
  "status": "proved",
  "note": "At most 254 copies of sources in total (beyond 255 independent factors the labels of components overflow, C10). C61_false_empty_constraint proves the exception: trivial user constraints make solve raise. The pipelines are stated without linearised constraints; with them, C52_dag_model_accepted needs that no product of known values is below 1e-8."
 },
 "C62": {
  "status": "partial",
  "note": "Partial because the property is false in two corners: bounds on the unit absorbed by name (C62_false_absorbed_unit_bound), and constraints among known values and bounds are not in the file (C39). Stale cached lists are excluded by hypothesis (C35_view_by_name_stale); C62_views_up_to_date says when they are fresh. C62_rectification_adds_free_variable: the treatment of unnormalised problems only adds an unused variable."
 },
 "C63": {
  "status": "proved",
  "note": "C63_conditions and C63_quadratic give existence and shape in every reachable table, C63_hold_classical/_theory/_quantum the validity by column numbers, C63_by_name the named versions."
 },
 "C64": {
  "status": "proved",
  "note": "C64_bisection_*, C64_certificates_* (global and local inner optimisation), C64_search_is_stateless, C64_distributions_agree link it to set_distribution. The solver is trusted as stated in Trusted and TrustedCertificate; a pending direction `min` makes the search raise (C64_pending_minimisation_raises)."
 },
 "C65": {
  "status": "partial",
  "note": "Full for functionals of distributions: C65_lp_functional_* and C65_sdp_functional_classical, C65_sdp_functional_quantum_uninflated, and for C65_lp_bound_* in general. Missing: in the semidefinite program the non-negativity of physical moments must hold (BoundsSafe; false in general, C46) for quantum models, and histories with reset(\"values\") are excluded (C43); written linear-program objectives need ranks that fit the integer type (RanksFit). The solver is trusted as stated in TrustedLp, TrustedSdp."
 },
 "C66": {
  "status": "partial",
  "note": "Full for classical models, and for quantum networks without inflation. Missing: for quantum networks with inflation and for operator models the default lower bounds of the code must hold (BoundsSafe; false in general, C46); linearised constraints (use_lpi) are excluded. C66_search_leaves_a_trace: the search changes the program for good (set_values deletes default lower bounds). Solver and certificate are trusted as stated in Trusted, TrustedCertificate; different moments are assumed to have different names (NamesDiffer)."
 },
 "C67": {
  "status": "partial",
  "note": "Full for names of moments of the table. Restrictions: representatives are only asked for words that cannot be simplified (as the moment matrix and the readers do); what is done with a string that is not in the table is a parameter (split); at most 254 copies of a source. The name is not a function of the moment: adjoint copies keep the legacy name and symbol of the original and get a display name of their own, so the theorem is stated for every name a moment can have (MomentNamed)."
 },
 "C68": {
  "status": "partial",
  "note": "Proved for every generating set preserved by the relabellings of copies, in particular all NPA and local levels. False in two corner cases, proved: generating sets given by hand that are not preserved (C68_false_for_lopsided_columns) and parties with children and a single outcome (C68_false_for_one_outcome)."
 },
 "C69": {
  "status": "partial",
  "note": "The physical columns, their closure and the relaxation are proved in full. Reading of names is partial: a level with as many digits as there are parties is read digit by digit (C69_two_digit_level_misread), and 'Local1' with a capital is accepted but gives the physical set (C69_capital_local)."
 },
 "C70": {
  "status": "partial",
  "note": "Proved in full for set_distribution and classical models of the graph (C70_distribution_never_excluded), with a condition on P alone (NotTiny; C70_not_tiny is a criterion). C70_never_excluded_partial: for models which are not classical the lower bounds 0 of moments found hermitian are a hypothesis (C46). Refuted for set_values with true values of moments that are not atoms (C70_false_for_other_values): the right side of a linearised constraint may have a value, and then the program is wrong."
 },
 "C71": {
  "status": "partial",
  "note": "Exactly characterised by C71_symbolic_columns: the expressions are read back if and only if no operator of a party with observed parents occurs (in particular for all networks, C71_symbolic_round_trip_partial); refuted otherwise (C71_false_with_observed_parents: names with `|do(` are rejected by an assertion). Columns with the zero operator and lists with one array are not read (C71_zero_is_not_read, C71_single_array). SymPy is modelled as lists of factors with exponents."
 },
 "C72": {
  "status": "proved",
  "note": "C72_measurement_operators (what an entry is), C72_shape (which entries exist), C72_symbols_distinct, C72_every_operator (all operators without the last outcome), C72_products, C72_generating_sets and C72_levels. C72_shape, C72_every_operator and C72_levels assume that every source has at least one copy (with no copies the list is empty)."
 },
 "C73": {
  "status": "partial",
  "note": "C73_commutators and C73_each_pair_once prove the claim about commutators, C73_positions and C73_entries the positions (for problems in which every party has a source, which the code requires). Refuted: lexicographic_order has one key too many, the row of the zero operator, which is printed as an operator of the last party with copies 0 (C73_false_extra_entry)."
 },
 "C74": {
  "status": "partial",
  "note": "C74_formats, C74_written_file and C74_default_partial characterise all file names. Refuted for names without format in directories with dots, such as ./program (C74_false_default): an exception instead of the default."
 },
 "C75": {
  "status": "proved",
  "note": "C75_larger_is_stronger with C75_stays_infeasible, C75_margin and C75_optimum for all generating sets with the identity; C75_products_of_parties, C75_npa_levels, C75_local_levels, C75_local_below_npa, C75_npa_below_local, C75_physical_levels and C75_physical_below_local have no assumption on the programs, for networks. When some party knows outcomes of others, the normalisation equalities of the smaller program are assumed to be among those of the larger one. The larger program may also be without the option shared_randomness when the smaller one has it. Without linearised constraints (use_lpi_constraints=False); the calls after set_distribution are set_objective and solve."
 },
 "C76": {
  "status": "partial",
  "note": "C76_mixtures and C76_mixture_not_excluded: convexity; C76_models_not_excluded: mixtures of the distributions of classical causal models, with C76_mixture_accepted (set_distribution accepts the mixture); C76_option_is_weaker: what satisfies the program without the option satisfies it with it. For the NPA, local and physical levels of networks (C76_npa_levels, C76_local_levels, C76_physical_levels: the program is built, the mixture accepted, the solver arguments prepared and satisfiable) and every generating set that contains the commuting parts of its words (C76_closed_sets_solvable, C76_closed_sets_not_excluded) nothing is assumed about the program; for these sets what satisfies the program without the option satisfies the one with it, with no assumption on the latter (C76_allowed_with_option). Partial because the option does not work for every generating set: C76_false_always_solved, with the generating set 1 and A1*A2 of two independent copies of an outcome, set_distribution(shared_randomness=True) gives a value to the atom A1, which is no moment, and `solve` fails with an AssertionError (InflationSDP.py 2143-2145), while without the option it works. set_distribution raises no exception for mixtures of distributions of models (C76_mixture_raises_nothing). The statements are about programs without linearised constraints. The examples have a mixture whose values satisfy the program with the option and not without it."
 }
}
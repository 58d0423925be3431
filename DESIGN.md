# Formal model of ecboghiu/inflation in Lean 4

## Approach
The Python code is modelled function by function as small total Lean functions over `List`, `Nat`, `Int`, `Bool`,
`Option`, `ℚ` or an arbitrary ordered field. Loops become folds, structural recursion or recursion on an explicit
measure; in-place mutation becomes returning the new value; exceptions become `Option`/`Except` (and, for the stateful
classes, a state together with the exception, because the state an exception leaves behind matters). Every definition
cites the file and lines it models and says where it simplifies. Arrays are lists; symmetric boolean tables are
functions; dictionaries are association lists in insertion order (`State/Dict.lean`); Python sets are lists together
with an arbitrary iteration order where the order can be observed.

Layout: `lean/Verif/<Topic>/Model.lean` (model of the code), `Spec.lean` (small specification that does not mention the
code), `*Lemmas.lean` and similar (helpers), `Props.lean` (the property theorems, named `Cnn_...`, each followed by an
`example` showing that its hypotheses are met by a concrete non-trivial case) and `Witness.lean` (concrete instances and
negations). `tools/gen_manifest.py` collects the theorems into `MANIFEST.json`; `tools/gen_properties.py` and
`tools/gen_design.py` write `properties.jsonl` and this file; `tools/seed.py` runs the seeded-bug tests recorded in
`seeded/LOG.jsonl`.

Where the code violates a property the negation is proved with a concrete witness and the part that does hold is proved
under hypotheses that exclude the witness, with the suffix `_partial` where it falls short of the statement.

## Trusted base
* Lean 4.33.0's kernel. Axioms: only `propext`, `Classical.choice`, `Quot.sound`; none of our own. No `native_decide`,
  no `bv_decide`.
* Fidelity of the model to the Python text is by reading; every definition cites the lines it models. Nothing was run.
* Floating-point numbers are modelled by exact numbers of an ordered field, so rounding errors of arithmetic are not
  covered; the explicit tolerances in the code (`np.isclose`, `1e-8`, `chop_tol`) are modelled. Fixed-width integers are
  unbounded except where the width matters (8-bit component labels, C10).
* External code is represented by its contract where it is used: MOSEK (any answer allowed by its specification:
  feasible/optimal points, multipliers with the right signs), SLSQP (arbitrary function, with hypotheses stated in the
  theorems), `scipy.optimize.bisect` (modelled after its C source), numpy (`unique`, `lexsort`, `isclose`, boolean
  indexing, bitwise operations), Python's `sorted` (stable insertion sort), `str` of floats (arbitrary printing function
  that can be read back).
* numba's compiled functions are read as Python.

## What is modelled
| file | modelled | not modelled |
|---|---|---|
| `InflationProblem.py` | construction of the tables (170-410), operator list, lookups, commutation and compatibility tables, templates, names, knowability, fake-setting rectification, factorisation, symmetries | warnings, `__repr__`, sympy symbols |
| `sdp/fast_npa.py` | everything but `reverse_mon`, `nb_all_commuting_q` as separate functions (inlined) | |
| `utils.py` | permutations, `clean_coefficients`, sparse expansion, `vstack`, cliques | `make_numerical` (sympy) |
| `lp/numbafied.py`, `lp/InflationLP.py` | lexboolvec generation, equalities, inequalities, Collins-Gisin transforms, orbits, values, objectives, bounds, extra constraints, solver arguments, resets, certificates, names | sympy output, verbose printing |
| `lp/monomial_classes.py`, `sdp/monomial_classes.py` | equality, ordering, names, knowability status, evaluation, marginals, hermiticity | sympy symbols |
| `lp/lp_utils.py` | conversion of dictionaries, all formulations handed to MOSEK, certificate | solver parameters, printing |
| `sdp/quantum_tools.py` | moment matrix, symmetrisation, normalisation equalities | sympy itself: its non-commutative symbols are words of factors (`Symbolic`, `Listings` model `generate_operators`, `commutation_relations`, `lexicographic_order`) |
| `sdp/InflationSDP.py` | canonicalisation and its caches, representatives, moment matrix, columns from specifications, normalisation search, column symmetries, values, objective, bounds, extra constraints, solver arguments, resets, certificates, names, `_generate_parties` | progress bars, logging |
| `sdp/sdp_utils.py` | preprocessing, primal and dual problems, certificate, reported matrix | solver parameters |
| `sdp/writer_utils.py` | `write_to_sdpa`, `write_to_mat`, `convert_to_human_readable` | `savemat`, the characters of the CSV file |
| `lp/writer_utils.py` | LP and MPS | |
| `optimization_utils.py` | both maximisation routines | sympy substitution |

The whole LP chain (constructor arguments, columns, rows, monomials, `set_distribution`, `solve`, certificate) is composed in
`EndToEnd/Model.lean` and proved sound against classical causal models (C52, C53).

## Testing the theorems against wrong programs
`seeded/LOG.jsonl` has one line per seeded bug: the definition edited in a scratch copy, the edit, the claim it breaks, the
theorems that failed to build, the claims that could no longer be derived, and theorems tightened as a consequence. A
mutation marked "control" need not break the claim.

## Properties

### C01 Canonical form preserves the operator a monomial denotes (proved)
`Canon`. Model: `nb_lexmon_to_canonical`, `lexmon_is_zero`, `remove_projector_squares`, `to_canonical_1d_internal`. Spec: the congruence on words generated by commutation, `aa = a` and `ab = 0` for orthogonal operators. Induction on the word.

Soundness of the canonical form for every word, over the operator congruence generated by commutation, idempotence and orthogonality.

Theorems: `C01_canonical_preserves_operator`, `C01_commutations_only_preserves_operator`, `C01_commuting_preserves_operator`

### C02 Canonical form decides equality under commutations (proved)
`Canon`. The greedy form is the least word of its trace class; two words have the same form iff they are related by commutations (induction on the length, projection to the first letter).

Completeness and soundness for the commutation-only form.

Theorems: `C02_canonical_decides_commutation`

### C03 Full canonical form decides equality under commutation, idempotence and orthogonality (proved)
`Canon/Full.lean`. Normal forms of the full relation are unique; uses that outcomes of one measurement have the same commutation partners, which is then proved of every operator list (`C03_every_scenario`).

Both for abstract operator lists and for the list/matrices built for any problem (C03_every_scenario).

Theorems: `C03_canonical_decides_operator_equality`, `C03_canonical_detects_zero`, `C03_every_scenario`

### C04 Canonicalisation is idempotent and picks the lexicographically least word (proved)
`Canon`. Lexicographic minimality among all words in the same trace class, idempotence as a corollary.

Theorems: `C04_canonical_is_lex_least`, `C04_canonical_idempotent`

### C05 The fast commuting path agrees with the general path (proved)
`Canon`. The shortcut for commuting operators (sort and deduplicate) is compared with the general loop.

Theorems: `C05_commuting_shortcut_agrees`

### C06 The commutation relation is symmetric, irreflexive and blind to outcomes (proved)
`Scenario/Commute*.lean`. `nb_operators_commute`, `commutation_matrix` and the party-pair table, against a specification in terms of shared sources and parties.

Theorems: `C06_noncommuting_iff`, `C06_matrix`, `C06_outcome_blind`

### C07 Every set of mutually compatible measurements is enumerated exactly once (proved)
`Cliques`. Breadth-first queue of `all_and_maximal_cliques` as a list; invariant over the queue: sorted by size then lexicographically, complete.

Theorems: `C07_all_cliques`, `C07_listed_once_in_order`

### C08 The maximal compatible sets reported are exactly the maximal cliques (proved)
`Cliques`. Maximality test of the same loop.

Theorems: `C08_maximal_cliques`, `C08_empty_graph_not_reported`, `C08_cutoff_unreliable`, `C08_not_isolated`

### C09 Factorisation splits a moment into independent connected factors and loses nothing (proved)
`Components`, `Fact.lean`. Component labelling loop, grouping of the operators by label; specification: reachability via shared source copies.

Theorems: `C09_factorization`, `C09_factors_independent`, `C09_capacity_of_length`

### C10 Component labels are faithful up to the capacity of their 8-bit type and not beyond (proved)
`Components`. The labels are 8-bit; faithful up to the capacity, with the collision beyond it as a witness.

Theorems: `C10_labels_faithful`, `C10_discrete_labels`, `C10_label_collision`

### C11 Skipping factorisation is only done when nothing can factorise (proved)
`Components`. The flag `_no_factorization`-style shortcut.

Theorems: `C11_flag_sound`, `C11_shortcut_agrees`

### C12 The operator list contains every measurement operator exactly once and lookups round-trip (proved)
`Scenario`. Nested loops over `ndindex` as list products; lookup tables and the compiled lookup.

Theorems: `C12_lexorder_complete_nodup`, `C12_monomial_roundtrip`, `C12_compiled_lookup`

### C13 Effective settings encode private setting and parents' outcomes faithfully (proved)
`Scenario`. Mixed-radix encoding of private setting and parents' outcomes, bijective.

Theorems: `C13_effective_settings_bijective`

### C14 Inflation symmetries are exactly the group of source-copy relabellings (proved)
`Symmetry`. Source permutations acting on the operator list, compared with the set of all relabellings.

Theorems: `C14_symmetries_are_relabellings`, `C14_no_symmetry_missed`, `C14_identity_first`, `C14_count`, `C14_rows_are_permutations`, `C14_group`, `C14_rows_nodup`

### C15 Symmetries respect commutation, orthogonality and canonical equality (proved)
`Symmetry`. Invariance of the commutation, orthogonality and canonical equality under rows of the symmetry table.

Theorems: `C15_symmetry_preserves_commutation`, `C15_symmetry_preserves_orthogonality`, `C15_symmetry_preserves_canonical_equality`

### C16 LP moments are identified exactly when they are related by a symmetry (proved)
`Orbits`. `_discover_inflation_orbits`; invariant of the sweep: visited events have the least member of their orbit as representative.

Theorems: `C16_orbit_representative`, `C16_identified_iff_same_orbit`

### C17 Which representative an LP atomic moment gets does not depend on earlier calls (partial)
`Orbits`. The cache of atomic representatives as a history of calls.

Holds for inflated problems; refuted without inflation (C17_order_leaks_without_inflation), where it holds for calls with sorted arrays only.

Theorems: `C17_representative_history_independent`, `C17_order_leaks_without_inflation`, `C17_sorted_calls_history_independent_partial`

### C18 The moment matrix is symmetric and equates entries exactly when the moments are equal (proved)
`MomentMatrix`. The mutable index table as fold state; invariant relating indices and canonical words of `col_i† col_j`.

Theorems: `C18_symmetric`, `C18_zero_entries`, `C18_entries_equal_iff`, `C18_entries_consecutive`, `C18_index_table`

### C19 SDP variables are merged exactly along symmetry orbits (proved)
`SymMM`. `apply_inflation_symmetries` on the index matrix, `_discover_columns_symmetries`, end to end for every problem.

For every matrix and group of column permutations acting consistently.

Theorems: `C19_every_problem`, `C19_symmetrization`, `C19_numbering`

### C20 A moment is 'knowable' exactly when it is an event of the original network (proved)
`Knowable`. `nb_is_knowable`, `_is_knowable_q_non_networks`, `rectify_fake_setting`, `nb_is_do_conditional`, against existence of an original event.

Theorems: `C20_knowable_iff`, `C20_do_conditional_iff`, `C20_atomic_knowable_iff`, `C20_rectified`

### C21 Moments flagged as physical are non-negative in every quantum model (partial)
`Positivity`. `nb_is_physical`; specification: a *-algebra with a positive functional and operators obeying the relations; sandwiching argument.

Proved for every problem without nonclassical intermediate latents; refuted with them (C21_false_with_latents).

Theorems: `C21_physical_nonneg_partial`, `C21_every_problem_partial`, `C21_false_with_latents`

### C22 Marginals computed from a distribution are the true marginals (proved)
`Marginal`. `compute_marginal` on tensors as functions of index lists; specification: sum over the outcomes of absent parties.

Theorems: `C22_marginal_correct`, `C22_empty`, `C22_order_matters`

### C23 For no-signalling distributions the marginal does not depend on absent parties' settings and normalises (proved)
`Marginal`. No-signalling distributions.

Theorems: `C23_settings_irrelevant`, `C23_value_any_settings`, `C23_sum_over_party`

### C24 A product moment does not depend on the order of its factors (proved)
`Moment`. Sorted factor lists, equality and hash of compound moments for LP and SDP.

Theorems: `C24_order_irrelevant`, `C24_equality`, `C24_factors`, `C24_status`, `C24_sdp_equality`

### C25 Evaluating a moment against known values is sound (proved)
`Moment`. `CompoundMoment.evaluate`; soundness for every multiplicative valuation.

Theorems: `C25_evaluate_sound`, `C25_remainder`, `C25_status`, `C25_known_precision`

### C26 Setting a distribution leaves no trace of earlier ones (partial)
`State`, `SdpState`. State machines of the two classes, induction over histories of public calls.

LP: no call leaves a trace for non-supports problems; refuted for supports problems, where lower bounds accumulate. Known and semi-known dictionaries are characterised exactly. SDP: values leave no trace (C26_sdp_no_trace), bounds keep their meaning through one call, but are lost over histories (C26_sdp_bounds_lost).

Theorems: `C26_sdp_no_trace`, `C26_sdp_bounds_kept_partial`, `C26_sdp_bounds_lost`, `C26_no_trace`, `C26_support_bounds_accumulate`, `C26_known_values`, `C26_semiknown_values`, `C26_semiknown_remainder_free`

### C27 A moment is never both known and semi-known, and the unit moment is always known to be 1 (partial)
`State`, `SdpState`. Invariants over all histories.

LP: disjoint for all histories; unit known for non-supports problems, refuted for supports problems. SDP: the same over histories without exceptions; refuted after an exception (C27_sdp_overlap_after_error).

Theorems: `C27_sdp_disjoint`, `C27_sdp_overlap_after_error`, `C27_sdp_unit_known`, `C27_disjoint`, `C27_unit_known`, `C27_supports_unit_lost`

### C28 Every LP constraint generated holds for every genuine distribution (proved)
`CollinsGisin`. Boolean event vectors, inclusion-exclusion over measurements, block structure of templates; specification: a probability distribution on outcome assignments of all inflated measurements. End to end from the user's scenario (`C28_every_problem`), and completeness (`C28_no_spurious_solutions`).

Theorems: `C28_no_spurious_solutions`, `C28_every_problem`, `C28_equalities_hold`, `C28_inequalities_are_probabilities`, `C28_inequalities_hold`

### C29 LP solver encodings describe the stated feasible set (partial)
`LpSolver` (matrices, dictionaries, MOSEK task), `State/LpProps`, `SdpState/Props` (solver arguments).

The task handed to MOSEK's LP solver has exactly the user's feasible set and objective (matrices, dictionaries, inflation problems; weak duality for the dual form). False in corner cases, proved as negations: the dual form disagrees for negative lower bounds (C29_dual_disagrees), matrix equalities are dropped when semi-known relations are a dictionary (C29_mixed_drops_equalities), empty rows raise (C29_empty_constraint_raises), bounds on otherwise unused variables raise.

Theorems: `C29_bounds_as_rows`, `C29_dictionaries`, `C29_dictionaries_accepted`, `C29_bound_only_variable_raises`, `C29_mixed_drops_equalities`, `C29_inflation_problem`, `C29_wellformed`, `C29_primal_task`, `C29_task_exists`, `C29_empty_constraint_raises`, `C29_weak_duality`, `C29_dual_disagrees`, `C29_sdp_arguments_faithful`, `C29_sdp_set_upper`, `C29_sdp_set_lower`, `C29_arguments_faithful`

### C30 Relaxed feasibility problems answer the original question (partial)
`LpSolver/Relax.lean`. Relaxed problems are feasible with value >= 0 iff the original is feasible.

Both relaxations are exact without default non-negativity, and for every inflation problem (C29_inflation_problem, C30_inflation_rows_imply_nonneg); refuted with default_non_negative in general (C30_false_with_default_nonneg).

Theorems: `C30_inflation_rows_imply_nonneg`, `C30_relaxed_inequalities`, `C30_relaxed_known_values`, `C30_with_default_nonneg`, `C30_dual_relaxed_inequalities`, `C30_false_with_default_nonneg`

### C31 Infeasibility certificates are valid (partial)
`LpSolver/Cert*.lean`, `SdpSolver/Cert.lean`. Weak duality for the multipliers MOSEK may return.

LP: proved for problems without bounds and with objectives on unknown moments, up to the 1e-8 threshold on the dictionary; refuted with bounds, with known moments in the objective, and for infeasible optimisations (C31_false_*). SDP: proved for all known values, both for optimisation and feasibility as optimisation; refuted when a known moment is both in the objective and in the moment matrix (C31_sdp_false_with_known_objective).

Theorems: `C31_certificate_keys`, `C31_certificate_valid`, `C31_feasibility_certificate_valid`, `C31_value_at_known`, `C31_negative_is_incompatible`, `C31_dictionary_close`, `C31_false_with_bounds`, `C31_false_with_known_objective`, `C31_false_for_infeasible_with_objective`, `C31_sdp_certificate_bounds`, `C31_sdp_feasibility_certificate`, `C31_sdp_negative_is_incompatible`, `C31_sdp_dictionary_close`, `C31_sdp_false_with_known_objective`

### C32 Eliminating semi-known moments does not change the SDP's feasible set (partial)
`SdpSolver`. Elimination loop over dictionaries and mask matrices; values of eliminated moments are recovered.

Proved exactly when semi-known moments are proportional to moments that are neither known nor semi-known, also for feasibility as optimisation; refuted otherwise (C32_false_for_known_target, C32_false_for_chains).

Theorems: `C32_dual_bounds_objective`, `C32_dual_bounds_feasibility`, `C32_same_solutions`, `C32_elimination_equivalent`, `C32_feasibility_as_optimisation`, `C32_accepted`, `C32_missing_semiknown_raises`, `C32_false_for_known_target`, `C32_false_for_chains`

### C33 User-supplied extra constraints reach the solver (partial)
`State`, `SdpState`. What the solver receives after `set_extra_*`.

True for the LP; false for the SDP for every history (C33_sdp_extra_ignored, C33_sdp_extra_violated).

Theorems: `C33_sdp_extra_ignored`, `C33_sdp_extra_violated`, `C33_lp_extra_reach_solver`

### C34 Memoised canonicalisation returns what direct canonicalisation would (partial)
`SdpRepr`. Memo table as association list, induction over histories of calls.

False in general (C34_flag_leaks, C34_repeated_zero); proved for reduced monomials and for histories with one flag.

Theorems: `C34_memo_correct_on_reduced_partial`, `C34_memo_correct_one_flag_partial`, `C34_flag_leaks`, `C34_repeated_zero`

### C35 Merging extra constraints and reading them back is stable (partial)
`State`. Cached views.

The matrix view is faithful; the cached by-name view is stale (C35_view_by_name_stale) and is corrupted by reading (C35_bounds_appended).

Theorems: `C35_matrix_view_partial`, `C35_view_by_name_stale`, `C35_bounds_appended`

### C36 Cleaning a certificate rescales it by a positive factor up to the documented rounding (proved)
`Certificates/Clean*.lean`. Exact numbers, any ordered field with a floor.

Proved for exact numbers (any ordered field with a floor): scaling, rounding error, signs, failure condition, significant coefficients kept, idempotence, effect on the value. Negations: C36_small_not_chopped, C36_rounding_excludes_compatible.

Theorems: `C36_scaled_and_rounded`, `C36_signs`, `C36_fails_iff`, `C36_significant_kept`, `C36_zero_tolerance`, `C36_value_close`, `C36_idempotent`, `C36_small_not_chopped`, `C36_rounding_excludes_compatible`

### C37 Bisection for the critical parameter brackets the true critical value (proved)
`Optimize/Bisect.lean`. Invariant of the bisection loop with the cached function.

scipy.optimize.bisect is modelled after its C source; the program is an arbitrary oracle. Limits proved: C37_tolerance_dominates, C37_assertions_do_not_suffice.

Theorems: `C37_brackets_sign_change`, `C37_within_tolerance`, `C37_never_below`, `C37_converges`, `C37_certificate_at_value`, `C37_tolerance_dominates`, `C37_assertions_do_not_suffice`

### C38 Certificate-driven maximisation never discards feasible parameters (proved)
`Optimize/Dual.lean`. Loop with decreasing bounds; termination by the archimedean property.

SLSQP is an arbitrary function assumed to find global or local maxima; negations C38_local_discards_feasible, C38_returns_weaker_bound, C38_raises_if_all_feasible.

Theorems: `C38_safe_global`, `C38_safe_local`, `C38_bounds_decrease`, `C38_terminates`, `C38_raises_if_all_feasible`, `C38_missing_symbol_raises`, `C38_local_discards_feasible`, `C38_returns_weaker_bound`

### C39 An exported LP or MPS file says the same as the problem (partial)
`Writers`. The text is produced character by character and read back by an independent reader.

Row and objective sections proved by reading the text back; the bound section of LP files is proved malformed whenever there is a bound (C39_bounds_iff); dropped violated constraints, dropped constant objectives, MPS rounding, implicit non-negativity and undeclared bounded variables are proved as negations.

Theorems: `C39_rows_partial`, `C39_feasible_set_partial`, `C39_bounds_on_one_line`, `C39_bounds_iff`, `C39_objective_partial`, `C39_constant_objective_dropped`, `C39_violated_constraint_dropped`, `C39_mps_partial`, `C39_mps_rounding_changes_problem`, `C39_mps_negative_excluded`, `C39_mps_bound_undeclared`

### C40 Names identify operators and moments (partial)
`Names`. Names as character lists; injectivity and reading back.

Proved: operator display, copy-free and legacy names are defined, distinct and read back (LP and SDP); names of atomic moments determine parties, settings, outcomes and do-values (also when do-values are hidden), to_name is injective, product names determine the factors with powers, <...> names are read back for every iteration order of the set. False of the code and proved so: P[...] names of two or more operators (and of one operator with do-values) are always rejected (factor_string[0:1] == 'P['), legacy moment names p(..|..) collide for longer party names. Positive part for one-character names only (_partial).

Theorems: `C40_moment_names`, `C40_bracket_name_reads_back`, `C40_probability_form_rejected`, `C40_do_form_rejected`, `C40_legacy_moment_names_partial`, `C40_legacy_moment_collision`, `C40_names_exist`, `C40_display_names_distinct`, `C40_copy_free_names`, `C40_legacy_names_distinct`, `C40_names_read_back`, `C40_copy_free_name_reads_first`, `C40_product_names`, `C40_compound_names`, `C40_to_name_injective`

### C41 Normalisation equalities added by the SDP hold in every model (partial)
`Normalization`. `construct_normalization_eqs`, `_discover_normalization_eqns`, `expand_moment_normalisation`.

Proved: every discovered column equality and every index equality holds in all models with complete measurements, end to end for every problem with the symmetrized matrix (C41_every_problem), no row forgotten, no exception, expand_moment_normalisation sound and complete. Partial: the dictionary handed to the solver is right only without coinciding moments and with at least two outcomes (C41_equal_summands_wrong, C41_single_outcome_raises); a `break` drops valid equalities (C41_break_drops_equality).

Theorems: `C41_column_equalities_hold`, `C41_index_equalities_hold`, `C41_moment_equality_partial`, `C41_single_outcome_raises`, `C41_every_problem`, `C41_equality_found_partial`, `C41_break_drops_equality`, `C41_every_row_covered`, `C41_search_never_raises`, `C41_expand_moment_holds`, `C41_expand_moment_complete`, `C41_equal_summands_wrong`

### C42 Generating sets contain no duplicates and no zero operators (partial)
`Columns`. `_build_cols_from_specs`, specification lists for NPA and local levels.

Proved for every scenario with classical or no-latent commuting parties: the NPA and local column lists are exactly the canonical forms of the products of the stated shape, without repetition, unit first. A repeated [] in the specification produces a duplicate unit column (C42_repeated_unit); with non-commuting cross-party operators the NPA level misses products (C42_npa_misses_products).

Theorems: `C42_columns_canonical_nonzero`, `C42_columns_distinct`, `C42_columns_of_shape`, `C42_products_present`, `C42_npa_level`, `C42_local_level`, `C42_unit_first`, `C42_columns_suit_moment_matrix`, `C42_parties_commute`, `C42_final_check`, `C42_repeated_unit`, `C42_npa_misses_products`

### C43 Objective rewriting preserves the objective value (partial)
`State`, `SdpState/Objective.lean`. Substitution of known and semi-known moments in the objective.

LP proved. SDP: proved for histories without exceptions and reset('values'); refuted after reset('values') (C43_sdp_stale_objective); semi-known moments in the objective always raise (C43_sdp_semiknown_raises).

Theorems: `C43_sdp_objective_partial`, `C43_sdp_stale_objective`, `C43_sdp_semiknown_raises`, `C43_sdp_semiknown_crash`, `C43_sdp_reported_optimum_partial`, `C43_sanitise`, `C43_lp_reported_optimum`

### C44 Solving again after any change cannot report a stale result (partial)
`State`, `SdpState`. The stored result belongs to the current problem.

SDP: all histories. LP: every call but set_extra_*; refuted for these (C44_stale_after_extra).

Theorems: `C44_sdp_up_to_date`, `C44_up_to_date_partial`, `C44_stale_after_extra`

### C45 The DAG is translated faithfully into the tables that drive commutation and factorisation (proved)
`Scenario/DagLemmas.lean`. Tables of parents, sources and intermediate latents.

Theorems: `C45_dag_tables`, `C45_table_symmetric`

### C46 Lower bounds of zero are only put on moments that are non-negative in every quantum model (partial)
`Positivity/Hermitian*.lean`. Default lower bounds on hermitian moments.

False in general: C46_default_bound_excludes_model gives a genuine quantum model excluded by the default bounds. C46_bounded_iff characterises the bounded moments exactly; positivity proved for moments selfadjoint by commutations and for problems without symmetries. C46_moments_nonneg: whenever every bounded moment is a product of words selfadjoint by commutations alone (BoundsSafe), the bounds hold in every quantum model of the inflated network.

Theorems: `C46_bounded_iff`, `C46_selfadjoint_nonneg`, `C46_bounded_nonneg_partial`, `C46_default_bound_excludes_model`, `C46_moments_nonneg`

### C47 SDP moments are identified exactly along symmetry orbits whatever was computed before (partial)
`SdpRepr`. Representatives over any history.

Proved for reduced monomials and any history; refuted for monomials with squares (C47_square_corrupts).

Theorems: `C47_representative_is_least`, `C47_same_representative_iff`, `C47_every_problem`, `C47_square_corrupts`

### C48 True values stay true over every history (proved)
`State/LpTruth.lean`, `SdpState/Truth.lean`. Invariant: every stored value is true of a given assignment if all given values are.

LP and SDP, all histories and all assignments; C48_stale_semiknown records what happens when values are replaced.

Theorems: `C48_sdp_truth_preserved`, `C48_truth_preserved`, `C48_stale_semiknown`

### C49 The reported moment matrix is that of the reported moments (partial)
`SdpSolver/Cert.lean`.

True for the primal formulation; false for the dual one, for every problem (C49_dual_matrix_ignores_values, C49_dual_matrix_wrong).

Theorems: `C49_primal_matrix_partial`, `C49_dual_matrix_ignores_values`, `C49_dual_matrix_wrong`

### C50 The reported certificate is the solver's certificate (partial)
`Certificates/Report*.lean`.

Proved when different names denote different moments (always the case for LPs and for SDPs without non-zero bounds); refuted for SDPs with bounds (C50_constant_lost) and for printing empty certificates (C50_sdp_zero_string_raises).

Theorems: `C50_sanitised_polynomial`, `C50_polynomial_value`, `C50_report_exact`, `C50_evaluate_close`, `C50_string_exact`, `C50_sdp_zero_string_raises`, `C50_constant_lost`

### C51 An exported file says the same as the semidefinite problem (partial)
`SdpWriter`. `write_to_sdpa`: numbering of moments by first occurrence, sections, sorting, printing; independent reader and semantics of the sparse SDPA format. `write_to_mat` and `convert_to_human_readable`: modelled as the structures that are written, with an independent meaning (`Mat.Feasible`, `Human.Feasible`).

SDPA: equivalence of the read-back file with the problem proved under the conditions Prob.Exportable, each of which is shown necessary by a proved negation except the tolerance 1e-8; the other direction of optimisation is proved as C51_sdpa_direction. MATLAB: what is passed to savemat says what the problem says (C51_mat_constraints, C51_mat_objective up to dropped coefficients of at most 1e-8, C51_mat_indices). Human-readable: at the level of terms, the table, bounds, constraints and objective say what the problem says (C51_readable_partial) under Prob.Readable; negations C51_false_readable_value and C51_false_readable_coefficient. Not modelled: savemat itself, and the characters of the human-readable file.

Theorems: `C51_mat_constraints`, `C51_mat_objective`, `C51_mat_indices`, `C51_sdpa_written_iff`, `C51_sdpa_partial`, `C51_sdpa_in_range_partial`, `C51_readable_partial`, `C51_readable_objective`, `C51_readable_written`, `C51_false_readable_value`, `C51_false_readable_coefficient`, `C51_sdpa_sign_lost`, `C51_sdpa_negative_upper_unreadable`, `C51_sdpa_second_inequality_lost`, `C51_sdpa_direction`, `C51_sdpa_semiknown_bound_lost`

### C52 A distribution compatible with the classical network is never reported incompatible (proved)
`EndToEnd`. The whole chain InflationProblem -> InflationLP -> set_distribution -> solve as the composition of the component models (`Model.lean`), against an independent definition of classical causal models of the network and of its inflation (`Spec.lean`, finite expectation over sources). Proved by: events over disjoint source copies factorise, relabelling copies preserves probabilities, the generated rows hold for all distributions of events (C12/C13), marginals of knowable atoms agree with the model (C22/C24), truth is kept by the state (C48), and the solver's formulation (C29/C30).

Hypotheses: no event of the inflation has more than 255 independent factors (the code's labels are 8-bit, C10); with linearised constraints no product of factors lies strictly between 0 and 1e-8 (the code records such products as known values); for the dual, lower bounds are not negative (C29). The construction is assumed to pass the code's own assertions (lpEnv returns a program). C52_dag_model_accepted states it for the graph as drawn (nodes and arrows; intermediate latents are deterministic functions of their parents, local randomness has to come from a parent; the code silently ignores an intermediate latent without parents).

Theorems: `C52_sources_table`, `C52_parents_table`, `C52_hypergraph_table`, `C52_dag_model_accepted`, `C52_distribution_accepted`, `C52_compatible_is_feasible`, `C52_primal_is_feasible`, `C52_dual_is_bounded`, `C52_relaxed_not_negative`, `C52_relaxed_known_is_zero`

### C53 A certificate of incompatibility is a valid causal inequality (proved)
`EndToEnd/CertProps.lean`: composition of C52's row validity with C31.

Same 255-factor hypothesis. With linearised constraints the certificate is only claimed for distributions with the same linearised constraints, and is not covered. C53_negative_certificate_excludes states it for the drawn graph: no causal model generates a distribution whose own certificate is below the tolerance.

Theorems: `C53_certificate_is_valid_inequality`, `C53_reported_certificate`, `C53_certificate_on_distribution`, `C53_negative_certificate_excludes`

### C54 The SDP never excludes a distribution of a classical causal model (proved)
`SdpEnd`. The chain InflationProblem -> InflationSDP (moment matrix, representatives, factorisation, known values, equalities, default bounds) -> set_distribution -> solve as the composition of the component models (`Model.lean`). A model of the inflated network is an algebra of projectors with a state (`Spec.lean`); a classical causal model of the drawn graph (the specification of C52) is turned into one on the commutative algebra of functions of all source copies and answers (`Answers`, `Classical`, `ClassicalProps`), then C56's results apply and the default lower bounds hold because classical probabilities are non-negative.

Hypotheses (structure Setup): the generating set consists of reduced words, at most 254 copies in total (the code's labels are 8-bit, C10), the construction passes the code's own assertions (build returns a program), no normalisation equality mentions a symmetrised moment twice (EqualitiesProper; otherwise the code's dictionary loses a multiplicity, see C41; automatic for networks), representatives are results of the memoised functions after some history. Linearised constraints are covered for histories under the hypothesis that no linearised constraint relates a moment to a determined one and that no product of factors is strictly between 0 and 1e-8.

Theorems: `C54_primal_is_feasible`, `C54_dual_is_bounded`, `C54_feasibility_not_negative`, `C54_no_exception`, `C54_distribution_never_excluded`

### C55 A certificate obtained from the SDP is a valid causal inequality for classical models (proved)
`SdpEnd/ClassicalSound.lean`: from C57 with the model of C54.

Hypotheses (structure Setup): the generating set consists of reduced words, at most 254 copies in total (the code's labels are 8-bit, C10), the construction passes the code's own assertions (build returns a program), no normalisation equality mentions a symmetrised moment twice (EqualitiesProper; otherwise the code's dictionary loses a multiplicity, see C41; automatic for networks), representatives are results of the memoised functions after some history. With linearised constraints the certificate is only claimed for distributions with the same constraints and is not covered.

Theorems: `C55_certificate_is_valid`, `C55_feasibility_certificate_is_valid`, `C55_certificate_on_distribution`, `C55_negative_certificate_excludes`

### C56 The SDP never excludes a distribution of a quantum model of the inflated network (partial)
`SdpEnd/Props.lean`, `Raise.lean`. The moments of the model satisfy every row the program generates: positivity of the moment matrix, equality of moments with the same representative (C47 and invariance of the state), factorisation, known values, normalisation; the state keeps truth over histories (C48); solver formulation (C33/C34). `Hermitian.lean`: BoundsSafe and its two sufficient conditions; `QuantumSound.lean`: set_distribution then solve never excludes; `HermitianFalse.lean`: the concrete failure (three qubits, one source with two copies).

Hypotheses (structure Setup): the generating set consists of reduced words, at most 254 copies in total (the code's labels are 8-bit, C10), the construction passes the code's own assertions (build returns a program), no normalisation equality mentions a symmetrised moment twice (EqualitiesProper; otherwise the code's dictionary loses a multiplicity, see C41; automatic for networks), representatives are results of the memoised functions after some history. Missing: the code bounds from below by 0 every moment it finds hermitian, also when hermiticity only holds up to relabelling of copies. C56_false_up_to_symmetry proves that the property then fails: a concrete quantum model of an inflated network has a moment of value -3/16 while the program's dual certifies that it is >= 0. The positive theorems assume BoundsSafe (all bounded moments are products of words selfadjoint by commutations alone), which is proved for commuting problems and for every problem without inflation symmetries (C56_uninflated_never_excluded_partial). The theorems with quantum_network in their name are for density matrices and local projective measurements with the Born rule (QuantumNet/): the inflation of such a network is constructed and proved to be a model of the inflated network that realises the network's distribution.

Theorems: `C56_quantum_network_never_excluded_partial`, `C56_quantum_network_uninflated_never_excluded`, `C56_false_up_to_symmetry`, `C56_distribution_accepted`, `C56_primal_is_feasible_partial`, `C56_dual_is_bounded_partial`, `C56_feasibility_not_negative_partial`, `C56_distribution_never_excluded_partial`, `C56_uninflated_never_excluded_partial`, `C56_no_exception_partial`

### C57 A certificate obtained from the SDP is a valid inequality for quantum models of the inflated network (partial)
`SdpEnd/CertProps.lean`: weak duality at the model's moments.

Same hypotheses as C56 (Setup and BoundsSafe); C56_false_up_to_symmetry is also a certificate violated by a quantum model. The theorems with quantum_network in their name are for density matrices and local projective measurements with the Born rule (QuantumNet/): the inflation of such a network is constructed and proved to be a model of the inflated network that realises the network's distribution.

Theorems: `C57_negative_certificate_excludes_quantum_networks_partial`, `C57_certificate_is_valid_partial`, `C57_feasibility_certificate_is_valid_partial`, `C57_certificate_on_distribution_partial`, `C57_negative_certificate_excludes_partial`

### C58 The linear program of a nonfanout inflation never excludes what a physical theory can do (proved)
`Theory`. `Spec.lean`: theories as probabilities of joint events. `Columns.lean`: every column of a nonfanout program is a joint event and the rows hold for a theory; `Known.lean`: the values of set_distribution are those of the theory; `Props.lean`: composition with the state (C48) and solver (C29/C30). `QuantumNet`: tensor products of operators on named systems (`Tensor.lean`), product states (`State.lean`), the Born rule (`Spec.lean`), the inflated network (`Inflate.lean`, `Model.lean`) and its marginal on the original network (`Born.lean`).

Hypotheses: no event of the inflation has more than 255 independent factors (C10); with linearised constraints no product of factors lies strictly between 0 and 1e-8; the construction passes the code's own assertions (lpEnv returns a program); for the dual, lower bounds are not negative (C29). A theory is any assignment of probabilities to joint events of compatible measurements (Theory/Spec.lean). C58_quantum_network_never_excluded is the instance for density matrices and projective measurements with the Born rule (QuantumNet/Spec.lean). Intermediate latents of quantum networks are treated as in the code: their children get the systems of the sources above them. Witnesses: Popescu-Rohrlich boxes (CHSH value 4), a two-qubit network with CHSH value 14/5.

Theorems: `C58_quantum_network_never_excluded`, `C58_distribution_accepted`, `C58_compatible_is_feasible`, `C58_primal_is_feasible`, `C58_dual_is_bounded`, `C58_relaxed_not_negative`, `C58_relaxed_known_is_zero`

### C59 A certificate of the nonfanout linear program is a valid inequality in every physical theory (proved)
`Theory/CertProps.lean`: C31 at the probabilities of the theory.

Same hypotheses as C58, without linearised constraints, bounds or objective. Witness: a signalling distribution with certificate -1.

Theorems: `C59_quantum_network_certificate`, `C59_certificate_is_valid_inequality`, `C59_reported_certificate`

### C60 Every accepted way of writing a moment denotes that moment (partial)
`Sanitise/`: the table of moments (names, symbols, cache of atoms) as a state; reachable states by induction; names injective on atoms of a consistent cache (C40), cache entries closed under symmetries (C16/C17), value by C52's factorisation and invariance; the text of a symbol determines the name (state machine of the regular expression, bracket depth for the commas).

Names and symbols are proved to read back for every reachable table (party names must not contain separators or brackets). Lists of operators are proved correct when the integer type of the problem can count the operators (RanksFit) and there are at most 254 copies of sources. False in general: with more operators than the integer type of settings, outcomes, parties and levels can count, rows and bracketed names denote a different operator (C60_false_many_operators, C60_ranks_wrap); products of names or of symbols that are not in the table denote the joint event of all operators, so P[A=0]*P[B=0] is read as P[A=0 B=0] and P[A=0]**2 as P[A=0] (C60_false_product_of_names, C60_false_symbolic_power). SymPy sums and numerical factors are not modelled.

Theorems: `C60_bracket_name_reads_as_ranks`, `C60_name_reads_back`, `C60_names_differ`, `C60_monomials_in_table`, `C60_result_has_name`, `C60_ranks_value_partial`, `C60_relabelled_ranks_partial`, `C60_column_ranks_partial`, `C60_rows_read_as_ranks`, `C60_numbers`, `C60_symbol_reads_back`, `C60_false_product_of_names`, `C60_false_symbolic_power`, `C60_ranks_wrap`, `C60_false_many_operators`

### C61 Building, filling and solving the LP never fails (proved)
`Distinct/`: two columns with the same moment are related by one relabelling of the copies (relabellings of the factors, which touch disjoint copies, are glued to one relabelling); columns are representatives of different orbits; sub-events of events are events, hence closure; readiness of the state as an invariant of all calls; non-empty rows imply that the task exists (C29).

At most 254 copies of sources in total (beyond 255 independent factors the labels of components overflow, C10). C61_false_empty_constraint proves the exception: trivial user constraints make solve raise. The pipelines are stated without linearised constraints; with them, C52_dag_model_accepted needs that no product of known values is below 1e-8.

Theorems: `C61_construction_succeeds`, `C61_factors_are_moments`, `C61_set_distribution_succeeds`, `C61_solve_reaches_solver`, `C61_false_empty_constraint`, `C61_pipeline_classical`, `C61_pipeline_theory`, `C61_pipeline_quantum`

### C62 Named views and exports describe the problem that is solved (partial)
`Views/`: the by-moment and by-name views, the dictionary of arguments and the absorbed bounds are modelled on top of the state of the LP; a row with different names has the value of the matrix row; proportionalities strictly shorten moments; freshness of the cached lists as an invariant; composed with the names (C60), the construction (C61) and the writer (C39).

Partial because the property is false in two corners: bounds on the unit absorbed by name (C62_false_absorbed_unit_bound), and constraints among known values and bounds are not in the file (C39). Stale cached lists are excluded by hypothesis (C35_view_by_name_stale); C62_views_up_to_date says when they are fresh. C62_rectification_adds_free_variable: the treatment of unnormalised problems only adds an unused variable.

Theorems: `C62_export`, `C62_file_rows_partial`, `C62_file_of_accepted_partial`, `C62_rectification_adds_free_variable`, `C62_absorbed_bounds_by_name_partial`, `C62_views_up_to_date`, `C62_absorbed_bounds`, `C62_equalities_by_moment`, `C62_inequalities_by_moment`, `C62_named_problem`, `C62_false_absorbed_unit_bound`

### C63 Factorization conditions exist, are complete and hold in every model (proved)
`Factorised/`: the six dictionaries are modelled with the table of moments as state; closure of the moments under factors (C61) makes all lookups succeed; the value of a column is the product over the factors (C52, C58); names differ (C60).

C63_conditions and C63_quadratic give existence and shape in every reachable table, C63_hold_classical/_theory/_quantum the validity by column numbers, C63_by_name the named versions.

Theorems: `C63_conditions`, `C63_quadratic`, `C63_hold_classical`, `C63_hold_theory`, `C63_hold_quantum`, `C63_by_name`

### C64 max_within_feasible never misses a model and what it returns is certified (proved)
`Search/`: the two searches with the program as state are shown equal to the pure searches of C37, C38 (set_values forgets all but bounds, objective, direction); the relaxed problem of a parameter with a model has a non-negative optimum in primal and dual form (C30, C52, C58), and certificates are non-negative there (C31).

C64_bisection_*, C64_certificates_* (global and local inner optimisation), C64_search_is_stateless, C64_distributions_agree link it to set_distribution. The solver is trusted as stated in Trusted and TrustedCertificate; a pending direction `min` makes the search raise (C64_pending_minimisation_raises).

Theorems: `C64_bisection_excludes_classical`, `C64_bisection_not_below_classical`, `C64_bisection_excludes_theories`, `C64_bisection_not_below_theories`, `C64_distributions_agree`, `C64_quantum_distributions_agree`, `C64_search_is_stateless`, `C64_certificates_not_below_classical`, `C64_certificates_not_below_theories`, `C64_certificates_local_not_below_classical`, `C64_certificates_local_not_below_theories`, `C64_pending_minimisation_raises`, `C64_extra_constraints_ignored`

### C65 The optimum reported by solve bounds the objective the user wrote, in every model (partial)
`Optimum/`: the objective in the state is the written one, with the sign of the direction (C26, C43); a model is a feasible point of the program given to the solver (C52, C54, C58), where the solver's value bounds the objective by weak duality (C30, C32) or by trust in the primal optimum; `readProduct` models how the semidefinite program reads a product of operators. The witness is Tsirelson's bound: all quantum networks have CHSH value at most 99/35.

Full for functionals of distributions: C65_lp_functional_* and C65_sdp_functional_classical, C65_sdp_functional_quantum_uninflated, and for C65_lp_bound_* in general. Missing: in the semidefinite program the non-negativity of physical moments must hold (BoundsSafe; false in general, C46) for quantum models, and histories with reset("values") are excluded (C43); written linear-program objectives need ranks that fit the integer type (RanksFit). The solver is trusted as stated in TrustedLp, TrustedSdp.

Theorems: `C65_lp_bound_classical`, `C65_lp_bound_theories`, `C65_lp_functional_classical`, `C65_lp_functional_theories`, `C65_lp_functional_quantum_networks`, `C65_lp_written_bound_partial`, `C65_sdp_bound_operators_partial`, `C65_sdp_bound_classical_partial`, `C65_sdp_written_operators_partial`, `C65_sdp_written_quantum_networks_partial`, `C65_sdp_written_classical_partial`, `C65_sdp_functional_classical`, `C65_sdp_functional_quantum_networks_partial`, `C65_sdp_functional_quantum_uninflated`

### C66 max_within_feasible on a semidefinite program never misses a parameter that a model explains (partial)
`SdpSearch/`: the search as a state machine around the model of the program (`SdpState`), every call of which may raise; an invariant says that every state in which the solver is asked is a run of truthful-if-the-model-explains-it calls; C54/C56 give a feasible point, weak duality (C30, C32) or the trusted primal value exclude a negative slack, C31 gives the sign of a certificate; the bisection and the loop over certificates are then analysed over an arbitrary stateful oracle.

Full for classical models, and for quantum networks without inflation. Missing: for quantum networks with inflation and for operator models the default lower bounds of the code must hold (BoundsSafe; false in general, C46); linearised constraints (use_lpi) are excluded. C66_search_leaves_a_trace: the search changes the program for good (set_values deletes default lower bounds). Solver and certificate are trusted as stated in Trusted, TrustedCertificate; different moments are assumed to have different names (NamesDiffer).

Theorems: `C66_bisection_excludes_operators_partial`, `C66_bisection_excludes_classical`, `C66_distributions_agree`, `C66_bisection_excludes_classical_distributions`, `C66_bisection_excludes_quantum_distributions_partial`, `C66_bisection_excludes_quantum_uninflated`, `C66_bisection_not_below_classical`, `C66_bisection_not_below_quantum_partial`, `C66_certificates_not_below_operators_partial`, `C66_certificates_not_below_classical`, `C66_no_objective_is_bare`, `C66_search_leaves_a_trace`

### C67 The name of a moment of a semidefinite program denotes that moment (partial)
`SdpNames/`: the names an atom can get (created, or as an adjoint) as a relation, the table of moments with its name dictionary as a transition system; the words of the moment matrix and the canonical forms cannot be simplified, so representatives are least in their orbit; text lemmas (C58, C45) recover the operators from the name, and two least representatives with the same operators up to copy labels agree; an invariant of the table then gives the lookup.

Full for names of moments of the table. Restrictions: representatives are only asked for words that cannot be simplified (as the moment matrix and the readers do); what is done with a string that is not in the table is a parameter (split); at most 254 copies of a source. The name is not a function of the moment: adjoint copies keep the legacy name and symbol of the original and get a display name of their own, so the theorem is stated for every name a moment can have (MomentNamed).

Theorems: `C67_name_reads_back`, `C67_names_differ`, `C67_moments_of_the_program`, `C67_certificate_names`, `C67_search_with_program_names`

### C68 Generating a relaxation succeeds (partial)
`Generate/`: two cells with the same moment have words in the same orbit (factor by factor; the relabellings of the factors glue to one of the whole because the factors use different copies, C61); a generating set preserved by a relabelling gives a permutation of the columns, which maps the one cell to a cell with the word of the other, so the symmetrised indices agree. Normalisation equalities: all indices come from the matrix and each measurement has at least two outcomes. Columns of `_build_cols_from_specs` are preserved because the letters allowed for a party are. The end-to-end theorem C54 is then restated without hypotheses on the program.

Proved for every generating set preserved by the relabellings of copies, in particular all NPA and local levels. False in two corner cases, proved: generating sets given by hand that are not preserved (C68_false_for_lopsided_columns) and parties with children and a single outcome (C68_false_for_one_outcome).

Theorems: `C68_relaxation_generated`, `C68_products_of_parties`, `C68_npa_level`, `C68_local_level`, `C68_distribution_never_excluded`, `C68_false_for_lopsided_columns`, `C68_false_for_one_outcome`

### C69 Named generating sets are what their names say (partial)
`Physical/`: `Model` follows the templates of parties, the choice of measurements and the outcomes; `Spec` says what a physical product is (strictly increasing, pairwise together, within the levels), not mentioning templates; `Members` proves that the columns are exactly these words, each once; `Props` derives suitability for the moment matrix (C03, C05), closure under relabelling, the order, and through C68 that the relaxation is generated; `Text` models the reading of the strings.

The physical columns, their closure and the relaxation are proved in full. Reading of names is partial: a level with as many digits as there are parties is read digit by digit (C69_two_digit_level_misread), and 'Local1' with a capital is accepted but gives the physical set (C69_capital_local).

Theorems: `C69_physical_columns`, `C69_columns_suit_moment_matrix`, `C69_unit`, `C69_every_product`, `C69_closed`, `C69_order`, `C69_relaxation_generated`, `C69_distribution_never_excluded`, `C69_every_string`, `C69_npa_string`, `C69_levels_per_party`, `C69_level_for_all_partial`, `C69_two_digit_level_misread`, `C69_capital_local`

### C70 Linearised polynomial constraints never exclude a distribution which the network produces (partial)
`Linear/`: `Involution` proves that the adjoint of atoms is an involution on representatives; `Separate` proves by induction over histories that known keys are atoms and their adjoints only, so unknown factors of semi-known moments make moments that are not known and not semi-known; `Props` combines this with C54/C56; `Excluded` has the counterexample for `set_values`, `Witness` a program with two linearised constraints.

Proved in full for set_distribution and classical models of the graph (C70_distribution_never_excluded), with a condition on P alone (NotTiny; C70_not_tiny is a criterion). C70_never_excluded_partial: for models which are not classical the lower bounds 0 of moments found hermitian are a hypothesis (C46). Refuted for set_values with true values of moments that are not atoms (C70_false_for_other_values): the right side of a linearised constraint may have a value, and then the program is wrong.

Theorems: `C70_false_for_other_values`, `C70_separated`, `C70_no_exception`, `C70_never_excluded_partial`, `C70_not_tiny`, `C70_distribution_never_excluded`

### C71 Generating sets returned as expressions or written as arrays are read back as the same generating sets (partial)
`Symbolic/`: `Model` has the product of noncommutative symbols, the dispatch of the list branch of `build_columns` and the reading of expressions (on top of the model of operator names of C40); `Props` proves that flattening a product gives its symbols back, that the name of an operator is not the name of a moment, and that it is read as the operator exactly if it has no `|do(`.

Exactly characterised by C71_symbolic_columns: the expressions are read back if and only if no operator of a party with observed parents occurs (in particular for all networks, C71_symbolic_round_trip_partial); refuted otherwise (C71_false_with_observed_parents: names with `|do(` are rejected by an assertion). Columns with the zero operator and lists with one array are not read (C71_zero_is_not_read, C71_single_array). SymPy is modelled as lists of factors with exponents.

Theorems: `C71_symbolic_columns`, `C71_symbolic_round_trip_partial`, `C71_expressions_differ`, `C71_zero_is_not_read`, `C71_words`, `C71_arrays`, `C71_single_array`, `C71_blocks`, `C71_levels_partial`, `C71_numbers`, `C71_named_atom`, `C71_false_with_observed_parents`

### C72 Products of the entries of InflationSDP.measurements are read as the products of the operators they stand for (proved)
`Symbolic/Measurements` has the model of `_generate_parties`; the copies are proved equal to those of the operators (induction over the sources), and the names equal to one of the legacy spellings, for which C40 gives the dictionary entry; names of moments contain brackets or are `0`. `Symbolic/MeasurementProps` has the theorems.

C72_measurement_operators (what an entry is), C72_shape (which entries exist), C72_symbols_distinct, C72_every_operator (all operators without the last outcome), C72_products, C72_generating_sets and C72_levels. C72_shape, C72_every_operator and C72_levels assume that every source has at least one copy (with no copies the list is empty).

Theorems: `C72_measurement_operators`, `C72_shape`, `C72_symbols_distinct`, `C72_every_operator`, `C72_products`, `C72_generating_sets`, `C72_levels`

### C73 The lists of commutators and of positions that users look at are those of the operators (partial)
`Listings/Relations`: the double loop over ranks as a filtered list of pairs, with the text of two operators split at `*`; by injectivity of `to_name` (C40) every pair appears once, and commutation is stated with `Incompatible` (the network specification of `Theory`).

C73_commutators and C73_each_pair_once prove the claim about commutators, C73_positions and C73_entries the positions (for problems in which every party has a source, which the code requires). Refuted: lexicographic_order has one key too many, the row of the zero operator, which is printed as an operator of the last party with copies 0 (C73_false_extra_entry).

Theorems: `C73_commutators`, `C73_each_pair_once`, `C73_positions`, `C73_entries`, `C73_false_extra_entry`

### C74 write_to_file writes the format that the file name asks for (partial)
`Listings/FileNames`: `str.split` at dots, the dispatch on the last part; every name has a last dot or none.

C74_formats, C74_written_file and C74_default_partial characterise all file names. Refuted for names without format in directories with dots, such as ./program (C74_false_default): an exception instead of the default.

Theorems: `C74_formats`, `C74_default_partial`, `C74_written_file`, `C74_false_default`

### C75 A larger generating set never gives a weaker relaxation (proved)
`Hierarchy`: the moment of a word is characterised up to the symmetry and the adjoint (`Orbit`, `Cells`), so a cell of the smaller moment matrix has the same moment as the corresponding cell of the larger one, which is a principal submatrix (`Solves`); the known values, default bounds and objective are functions of the moment (`Known`, `State`, `Values`), and those of the smaller program are among those of the larger one (`Transfer`).

C75_larger_is_stronger with C75_stays_infeasible, C75_margin and C75_optimum for all generating sets with the identity; C75_products_of_parties, C75_npa_levels, C75_local_levels, C75_local_below_npa, C75_npa_below_local, C75_physical_levels and C75_physical_below_local have no assumption on the programs, for networks. When some party knows outcomes of others, the normalisation equalities of the smaller program are assumed to be among those of the larger one. The larger program may also be without the option shared_randomness when the smaller one has it. Without linearised constraints (use_lpi_constraints=False); the calls after set_distribution are set_objective and solve.

Theorems: `C75_closed_sets`, `C75_physical_levels`, `C75_physical_below_local`, `C75_larger_is_stronger`, `C75_stays_infeasible`, `C75_margin`, `C75_optimum`, `C75_products_of_parties`, `C75_npa_levels`, `C75_local_levels`, `C75_local_below_npa`, `C75_npa_below_local`, `C75_same_moment`, `C75_known_values`

### C76 With shared_randomness=True what is not excluded is convex, and mixtures of what the graph can produce are never excluded (partial)
`Mixture`: the marginal of an atom is linear in the distribution (`Lemmas`); with the option exactly one, zero and the knowable atoms are known (`Hierarchy.valuesOf_shared`), so the program asks for values linear in the distribution, non-negative Hermitian moments, homogeneous equalities and a positive semidefinite matrix (`Fulfils`), all of which mixtures preserve. `Closed`: in a generating set containing the commuting parts of its words, every factor of a product of two words is a product of parts of these words, so the atoms that get values are moments (`atomics_moments`).

C76_mixtures and C76_mixture_not_excluded: convexity; C76_models_not_excluded: mixtures of the distributions of classical causal models, with C76_mixture_accepted (set_distribution accepts the mixture); C76_option_is_weaker: what satisfies the program without the option satisfies it with it. For the NPA, local and physical levels of networks (C76_npa_levels, C76_local_levels, C76_physical_levels: the program is built, the mixture accepted, the solver arguments prepared and satisfiable) and every generating set that contains the commuting parts of its words (C76_closed_sets_solvable, C76_closed_sets_not_excluded) nothing is assumed about the program; for these sets what satisfies the program without the option satisfies the one with it, with no assumption on the latter (C76_allowed_with_option). Partial because the option does not work for every generating set: C76_false_always_solved, with the generating set 1 and A1*A2 of two independent copies of an outcome, set_distribution(shared_randomness=True) gives a value to the atom A1, which is no moment, and `solve` fails with an AssertionError (InflationSDP.py 2143-2145), while without the option it works. set_distribution raises no exception for mixtures of distributions of models (C76_mixture_raises_nothing). The statements are about programs without linearised constraints. The examples have a mixture whose values satisfy the program with the option and not without it.

Theorems: `C76_closed_sets_solvable`, `C76_mixture_raises_nothing`, `C76_closed_sets_not_excluded`, `C76_npa_levels`, `C76_local_levels`, `C76_physical_levels`, `C76_mixtures`, `C76_mixture_not_excluded`, `C76_mixture_accepted`, `C76_models_not_excluded`, `C76_option_is_weaker`, `C76_false_always_solved`, `C76_allowed_with_option`

## Defects of the code found by the proofs
Each of these is a proved theorem (or follows from the model's `none`), the line numbers refer to `/repo/inflation`.

**Canonicalisation and caches.** The memo table ignores the flag `apply_only_commutations` (`C34_flag_leaks`) and a repeated zero
(`C34_repeated_zero`); squares corrupt later representatives (`C47_square_corrupts`); atomic representatives of uninflated LPs depend on
the order of earlier calls (`C17_order_leaks_without_inflation`).
**Labels.** More than 255 (partial) components collide (`C10_label_collision`).
**Positivity.** Moments flagged physical or bounded below by default need not be non-negative with nonclassical intermediate latents
or with symmetries (`C21_false_with_latents`, `C46_default_bound_excludes_model`, `C56_false_up_to_symmetry`).
**State of the LP.** Lower bounds of support problems accumulate (`C26_support_bounds_accumulate`, lp/InflationLP.py 1668-1676), the unit is
dropped (`C27_supports_unit_lost`), by-name views are stale and mutated by reading (`C35_*`), `set_extra_*` keeps a stale solution
(`C44_stale_after_extra`).
**State of the SDP.** Extra constraints never reach the solver (`C33_sdp_extra_ignored`), bounds are lost after `set_values` and a reset
(`C26_sdp_bounds_lost`), the processed objective is stale after `reset("values")` (`C43_sdp_stale_objective`), semi-known moments in the
objective raise (`C43_sdp_semiknown_raises`), known and semi-known overlap after an exception (`C27_sdp_overlap_after_error`).
**LP solver.** Zero rows raise (`C29_empty_constraint_raises`; for every problem `C61_false_empty_constraint`), primal and dual disagree for negative lower bounds (`C29_dual_disagrees`),
sparse equalities are dropped in mixed calls (`C29_mixed_drops_equalities`), variables with only bounds raise
(`C29_bound_only_variable_raises`), relaxations drop default non-negativity (`C30_false_with_default_nonneg`), certificates ignore bounds
and known moments in the objective (`C31_false_*`).
**SDP solver.** Semi-known moments proportional to known ones, and chains, change the problem (`C32_false_*`), the certificate overwrites
the objective's contribution (`C31_sdp_false_with_known_objective`), the matrix reported in dual mode is the constant part only
(`C49_dual_matrix_wrong`).
**Certificates.** `One` and the constant term share a key (`C50_constant_lost`); printing an empty SDP certificate raises
(`C50_sdp_zero_string_raises`); rounding can exclude compatible distributions (`C36_rounding_excludes_compatible`).
**Optimisation.** See `C37_assertions_do_not_suffice`, `C38_raises_if_all_feasible`, `C38_returns_weaker_bound`.
**Normalisation equalities.** Coinciding summands are overwritten (`C41_equal_summands_wrong`), single outcomes raise
(`C41_single_outcome_raises`), a `break` drops equalities (`C41_break_drops_equality`).
**Columns.** `C42_repeated_unit`, `C42_npa_misses_products`.
**Names.** `P[...]` is never recognised (`C40_probability_form_rejected`, `factor_string[0:1] == "P["`), legacy names collide
(`C40_legacy_moment_collision`).
**Writers.** LP bounds without line ends (`C39_bounds_on_one_line`), dropped constraints and constants, MPS rounding and implicit
non-negativity; SDPA: sign of known values, doubled minus sign, second inequality outside its block, direction of optimisation, bounds on
semi-known moments (`C51_*`).
**Reading moments.** Operator numbers are converted to the integer type chosen for settings, outcomes, parties and levels, so with more
operators than that type can count another operator is meant (`C60_false_many_operators`, lp/InflationLP.py 1087, InflationProblem.py 308-312);
products and powers of names that are not in the table are read as the joint event (`C60_false_product_of_names`,
`C60_false_symbolic_power`, lp/InflationLP.py 1084, 1174).
**Named views.** `_prepare_solver_arguments(separate_bounds=False)` turns a bound on the unit into `-bound >= 0` because both entries have the key
`1` (`C62_false_absorbed_unit_bound`, lp/InflationLP.py 1950-1956); the rectification of unnormalised problems (1937-1940) assigns to a dictionary
that is thrown away and only adds an unused variable (`C62_rectification_adds_free_variable`).
**Search.** `max_within_feasible` silently drops extra constraints set before (`C64_extra_constraints_ignored`: `set_values` in the loop resets them), and
after `set_objective(None, "min")` it raises because the reported slack has the wrong sign (`C64_pending_minimisation_raises`).
On a semidefinite program the search changes the program for good: the default lower bounds of the moments whose values it sets are deleted and
`set_values(None)` does not restore them (`C66_search_leaves_a_trace`).
The docstring example `"<A_1_1_1_2*B_2_1_3_4>"` of the readers of moments is not a valid name: the string is split at `*` and `KeyError` is raised (InflationSDP.py 1667-1677).
Adjoint copies of an SDP moment keep the legacy name and the symbol of the original (sdp/monomial_classes.py 96-104).
`generate_relaxation` raises the assertion "Multiple indices are being associated to the same monomial" for generating sets that are not preserved by exchanging copies, such as 1, A¹₀, A¹₁, A²₀ (InflationSDP.py 357-358, C68_false_for_lopsided_columns).
A party with children and a single outcome makes `generate_relaxation` raise `TypeError` (InflationSDP.py 400, C68_false_for_one_outcome).
`column_specification="Local1"` silently gives the physical generating set: the word is looked for in lower case but compared as written (InflationSDP.py 1161-1182, C69_capital_local).
`column_specification="local10"` with two parties means levels 1 and 0, not level 10 for both (InflationSDP.py 1166-1178, C69_two_digit_level_misread).
`set_values` with `use_lpi_constraints=True` and values for moments that are not atoms can make the program infeasible for true values: a linearised constraint "moment = number × known moment" is handed to the solver, which treats the known moment as a free variable on top of its value (InflationSDP.py 726-740, sdp_utils.py 210-235, C70_false_for_other_values). With values for atoms only, as in `set_distribution`, this cannot happen (C70_separated).
`build_columns(..., symbolic=True)` is documented as parsable by `generate_relaxation`, but for problems in which a party has an observed parent its output raises an `AssertionError` there: operator names such as `B_1=0|do(A=1)` contain `|` without brackets (InflationSDP.py 1699-1703, C71_false_with_observed_parents). A list with a single array raises an `IndexError` (`column_specification[1]` decides between one- and two-dimensional arrays, 1115-1119, C71_single_array).
`lexicographic_order` (sdp/quantum_tools.py 402-421) lists an operator that does not exist: the row of the zero operator has party 0, and `names[letter[0] - 1]` is the last name (C73_false_extra_entry).
`write_to_file("./program")` raises "File format not supported" instead of using the default format: the path is split at every dot, not only in its last component (InflationLP.py 922-924, InflationSDP.py 1305-1307, C74_false_default).
`set_distribution(..., shared_randomness=True)` gives values to single factors of moments that are no moments themselves; then `solve` raises an AssertionError, for example with the generating set 1, A1*A2 of two independent copies (InflationSDP.py 2143-2145, C76_false_always_solved).

The human-readable writer reads the text of a known value as a number and replaces it by the name of the moment with that index: a known value 2.0 is printed as the name of moment 2 (sdp/writer_utils.py 43-57, C51_false_readable_value). Coefficients within 1e-5 of 1 are not printed (sdp/writer_utils.py 98, C51_false_readable_coefficient). An empty equality raises an IndexError (C51_readable_written).

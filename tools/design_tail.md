## Defects of the code found by the proofs
Each of these is a proved theorem (or follows from the model's `none`), the line numbers refer to `/repo/inflation`.

**Canonicalisation and caches.** The memo table ignores the flag `apply_only_commutations` (`C34_flag_leaks`) and a repeated zero
(`C34_repeated_zero`); squares corrupt later representatives (`C47_square_corrupts`); atomic representatives of uninflated LPs depend on
the order of earlier calls (`C17_order_leaks_without_inflation`).
**Labels.** More than 255 (partial) components collide (`C10_label_collision`).
**Positivity.** Moments flagged physical or bounded below by default need not be non-negative with nonclassical intermediate latents
or with symmetries (`C21_false_with_latents`, `C46_default_bound_excludes_model`, `C56_false_up_to_symmetry`).
**State of the LP.** Lower bounds of support problems accumulate (`C26_support_bounds_accumulate`, lp/InflationLP.py 1668-1676), the unit is
dropped (`C27_supports_unit_lost`), by-name views are stale and mutated by reading (`C35_*`), `set_extra_*` keeps a stale solution
(`C44_stale_after_extra`).
**State of the SDP.** Extra constraints never reach the solver (`C33_sdp_extra_ignored`), bounds are lost after `set_values` and a reset
(`C26_sdp_bounds_lost`), the processed objective is stale after `reset("values")` (`C43_sdp_stale_objective`), semi-known moments in the
objective raise (`C43_sdp_semiknown_raises`), known and semi-known overlap after an exception (`C27_sdp_overlap_after_error`).
**LP solver.** Zero rows raise (`C29_empty_constraint_raises`; for every problem `C61_false_empty_constraint`), primal and dual disagree for negative lower bounds (`C29_dual_disagrees`),
sparse equalities are dropped in mixed calls (`C29_mixed_drops_equalities`), variables with only bounds raise
(`C29_bound_only_variable_raises`), relaxations drop default non-negativity (`C30_false_with_default_nonneg`), certificates ignore bounds
and known moments in the objective (`C31_false_*`).
**SDP solver.** Semi-known moments proportional to known ones, and chains, change the problem (`C32_false_*`), the certificate overwrites
the objective's contribution (`C31_sdp_false_with_known_objective`), the matrix reported in dual mode is the constant part only
(`C49_dual_matrix_wrong`).
**Certificates.** `One` and the constant term share a key (`C50_constant_lost`); printing an empty SDP certificate raises
(`C50_sdp_zero_string_raises`); rounding can exclude compatible distributions (`C36_rounding_excludes_compatible`).
**Optimisation.** See `C37_assertions_do_not_suffice`, `C38_raises_if_all_feasible`, `C38_returns_weaker_bound`.
**Normalisation equalities.** Coinciding summands are overwritten (`C41_equal_summands_wrong`), single outcomes raise
(`C41_single_outcome_raises`), a `break` drops equalities (`C41_break_drops_equality`).
**Columns.** `C42_repeated_unit`, `C42_npa_misses_products`.
**Names.** `P[...]` is never recognised (`C40_probability_form_rejected`, `factor_string[0:1] == "P["`), legacy names collide
(`C40_legacy_moment_collision`).
**Writers.** LP bounds without line ends (`C39_bounds_on_one_line`), dropped constraints and constants, MPS rounding and implicit
non-negativity; SDPA: sign of known values, doubled minus sign, second inequality outside its block, direction of optimisation, bounds on
semi-known moments (`C51_*`).
**Reading moments.** Operator numbers are converted to the integer type chosen for settings, outcomes, parties and levels, so with more
operators than that type can count another operator is meant (`C60_false_many_operators`, lp/InflationLP.py 1087, InflationProblem.py 308-312);
products and powers of names that are not in the table are read as the joint event (`C60_false_product_of_names`,
`C60_false_symbolic_power`, lp/InflationLP.py 1084, 1174).
**Named views.** `_prepare_solver_arguments(separate_bounds=False)` turns a bound on the unit into `-bound >= 0` because both entries have the key
`1` (`C62_false_absorbed_unit_bound`, lp/InflationLP.py 1950-1956); the rectification of unnormalised problems (1937-1940) assigns to a dictionary
that is thrown away and only adds an unused variable (`C62_rectification_adds_free_variable`).
**Search.** `max_within_feasible` silently drops extra constraints set before (`C64_extra_constraints_ignored`: `set_values` in the loop resets them), and
after `set_objective(None, "min")` it raises because the reported slack has the wrong sign (`C64_pending_minimisation_raises`).
On a semidefinite program the search changes the program for good: the default lower bounds of the moments whose values it sets are deleted and
`set_values(None)` does not restore them (`C66_search_leaves_a_trace`).
The docstring example `"<A_1_1_1_2*B_2_1_3_4>"` of the readers of moments is not a valid name: the string is split at `*` and `KeyError` is raised (InflationSDP.py 1667-1677).
Adjoint copies of an SDP moment keep the legacy name and the symbol of the original (sdp/monomial_classes.py 96-104).
`generate_relaxation` raises the assertion "Multiple indices are being associated to the same monomial" for generating sets that are not preserved by exchanging copies, such as 1, A¹₀, A¹₁, A²₀ (InflationSDP.py 357-358, C68_false_for_lopsided_columns).
A party with children and a single outcome makes `generate_relaxation` raise `TypeError` (InflationSDP.py 400, C68_false_for_one_outcome).
`column_specification="Local1"` silently gives the physical generating set: the word is looked for in lower case but compared as written (InflationSDP.py 1161-1182, C69_capital_local).
`column_specification="local10"` with two parties means levels 1 and 0, not level 10 for both (InflationSDP.py 1166-1178, C69_two_digit_level_misread).
`set_values` with `use_lpi_constraints=True` and values for moments that are not atoms can make the program infeasible for true values: a linearised constraint "moment = number × known moment" is handed to the solver, which treats the known moment as a free variable on top of its value (InflationSDP.py 726-740, sdp_utils.py 210-235, C70_false_for_other_values). With values for atoms only, as in `set_distribution`, this cannot happen (C70_separated).
`build_columns(..., symbolic=True)` is documented as parsable by `generate_relaxation`, but for problems in which a party has an observed parent its output raises an `AssertionError` there: operator names such as `B_1=0|do(A=1)` contain `|` without brackets (InflationSDP.py 1699-1703, C71_false_with_observed_parents). A list with a single array raises an `IndexError` (`column_specification[1]` decides between one- and two-dimensional arrays, 1115-1119, C71_single_array).
`lexicographic_order` (sdp/quantum_tools.py 402-421) lists an operator that does not exist: the row of the zero operator has party 0, and `names[letter[0] - 1]` is the last name (C73_false_extra_entry).
`write_to_file("./program")` raises "File format not supported" instead of using the default format: the path is split at every dot, not only in its last component (InflationLP.py 922-924, InflationSDP.py 1305-1307, C74_false_default).
`set_distribution(..., shared_randomness=True)` gives values to single factors of moments that are no moments themselves; then `solve` raises an AssertionError, for example with the generating set 1, A1*A2 of two independent copies (InflationSDP.py 2143-2145, C76_false_always_solved).

The human-readable writer reads the text of a known value as a number and replaces it by the name of the moment with that index: a known value 2.0 is printed as the name of moment 2 (sdp/writer_utils.py 43-57, C51_false_readable_value). Coefficients within 1e-5 of 1 are not printed (sdp/writer_utils.py 98, C51_false_readable_coefficient). An empty equality raises an IndexError (C51_readable_written).

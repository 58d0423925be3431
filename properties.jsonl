{"id": "C01", "title": "Canonical form preserves the operator a monomial denotes", "statement": "Bringing a monomial to canonical form never changes the operator product it stands for: in every algebra in which the measurement operators are projectors that commute and are orthogonal exactly where the problem says so, the product of the canonical form equals the product of the input (with the reserved zero operator denoting 0).", "quantifier": "all monomials of any length, all commutation and orthogonality matrices, all algebras and all interpretations satisfying those relations", "why_tests_cant": "quantifies over every monomial length and over every operator algebra; a test can only evaluate words on a few matrices", "anchors": ["inflation/sdp/fast_npa.py:to_canonical_1d_internal", "inflation/sdp/fast_npa.py:nb_lexmon_to_canonical", "inflation/sdp/fast_npa.py:remove_projector_squares", "inflation/sdp/fast_npa.py:lexmon_is_zero"]}
{"id": "C02", "title": "Canonical form decides equality under commutations", "statement": "Two monomials that can be turned into one another by repeatedly exchanging neighbouring commuting operators receive the same commutation-canonical form, and two monomials with the same form can be turned into one another in that way.", "quantifier": "all pairs of monomials of any length and every symmetric commutation relation", "why_tests_cant": "needs every pair of words in an infinite free monoid and every rewriting path between them", "anchors": ["inflation/sdp/fast_npa.py:nb_lexmon_to_canonical", "inflation/sdp/fast_npa.py:to_canonical_1d_internal"]}
{"id": "C03", "title": "Full canonical form decides equality under commutation, idempotence and orthogonality", "statement": "For the operator list of an inflation problem, two monomials receive the same canonical form exactly when they are equal modulo the relations 'commuting operators swap', 'P*P = P' and 'P*Q = 0 for different outcomes of one measurement'.", "quantifier": "all pairs of monomials of any length over any operator list whose measurements are contiguous blocks with equal commutation rows", "why_tests_cant": "confluence of a rewriting system over unbounded words; sampled words cannot exclude a missed identification", "anchors": ["inflation/sdp/fast_npa.py:to_canonical_1d_internal", "inflation/sdp/fast_npa.py:lexmon_is_zero", "inflation/sdp/fast_npa.py:remove_projector_squares", "inflation/InflationProblem.py:_ortho_groups", "inflation/sdp/InflationSDP.py:__init__"]}
{"id": "C04", "title": "Canonicalisation is idempotent and picks the lexicographically least word", "statement": "Canonicalising a canonical monomial changes nothing, and the commutation-canonical form is the lexicographically smallest of all words reachable by commuting swaps.", "quantifier": "all monomials and all commutation relations", "why_tests_cant": "minimality ranges over all reachable words of unbounded length", "anchors": ["inflation/sdp/fast_npa.py:nb_lexmon_to_canonical", "inflation/sdp/fast_npa.py:to_canonical_1d_internal"]}
{"id": "C05", "title": "The fast commuting path agrees with the general path", "statement": "When no two operators fail to commute, the commuting=True shortcut (plain sorting) returns exactly what the general canonicalisation returns.", "quantifier": "all monomials, all operator lists with trivial commutation matrix, both values of apply_only_commutations", "why_tests_cant": "two different code paths must agree on every word", "anchors": ["inflation/sdp/fast_npa.py:to_canonical_1d_internal", "inflation/sdp/fast_npa.py:nb_lexmon_to_canonical"]}
{"id": "C06", "title": "The commutation relation is symmetric, irreflexive and blind to outcomes", "statement": "The commutation matrix of a problem is symmetric with an all-commuting diagonal, never depends on the outcomes of the two operators, and two operators that do not share any copy of a quantum source are always declared commuting.", "quantifier": "all operator lists, all party-pair source tables that are symmetric in the parties", "why_tests_cant": "holds for arbitrary DAGs, inflation levels and operators", "anchors": ["inflation/sdp/fast_npa.py:nb_operators_commute", "inflation/sdp/fast_npa.py:commutation_matrix", "inflation/InflationProblem.py:sources_to_check_for_party_pair_commutation"]}
{"id": "C07", "title": "Every set of mutually compatible measurements is enumerated exactly once", "statement": "Enumerating all cliques of a compatibility graph returns the empty set followed by every clique exactly once (each as an increasing list); with a size cut-off it returns exactly the cliques up to that size.", "quantifier": "all graphs of any size, every cut-off", "why_tests_cant": "exponentially many cliques over graphs of unbounded size", "anchors": ["inflation/utils.py:all_and_maximal_cliques", "inflation/InflationProblem.py:all_and_maximal_compatible_templates"]}
{"id": "C08", "title": "The maximal compatible sets reported are exactly the maximal cliques", "statement": "Without a size cut-off, the second list returned is exactly the set of inclusion-maximal cliques, each once. (With a cut-off the code can also report non-maximal cliques: a counterexample is proved.)", "quantifier": "all graphs with at least one vertex", "why_tests_cant": "correctness depends on the BFS order of an unbounded queue", "anchors": ["inflation/utils.py:all_and_maximal_cliques"]}
{"id": "C09", "title": "Factorisation splits a moment into independent connected factors and loses nothing", "statement": "Factorising a monomial yields factors that together contain each operator occurrence exactly once in the original relative order; operators in different factors share no source copy, and each factor cannot be split further.", "quantifier": "all problems and all monomials of any length (up to the label capacity of C10)", "why_tests_cant": "transitive closure over unbounded monomials", "anchors": ["inflation/InflationProblem.py:factorize_monomial_1d", "inflation/InflationProblem.py:factorize_monomial_2d", "inflation/sdp/fast_npa.py:nb_classify_disconnected_components", "inflation/sdp/fast_npa.py:nb_overlap_matrix", "inflation/sdp/fast_npa.py:nb_exists_shared_source"]}
{"id": "C10", "title": "Component labels are faithful up to the capacity of their 8-bit type and not beyond", "statement": "The compiled component labelling gives two operators equal labels exactly when they are connected as long as there are at most 255 components; with more components, two unconnected operators can receive the same label.", "quantifier": "all overlap graphs; negation witnessed by an explicit family", "why_tests_cant": "requires reasoning about graphs with hundreds of components and integer wrap-around", "anchors": ["inflation/sdp/fast_npa.py:nb_classify_disconnected_components"]}
{"id": "C11", "title": "Skipping factorisation is only done when nothing can factorise", "statement": "If the problem declares that no moment ever factorises, then any two operators of the problem share a copy of some source, so returning the monomial unsplit is the correct factorisation.", "quantifier": "all DAG hypergraphs, all inflation levels, all pairs of operators", "why_tests_cant": "all hypergraph shapes", "anchors": ["inflation/InflationProblem.py:ever_factorizes", "inflation/InflationProblem.py:factorize_monomial_1d"]}
{"id": "C12", "title": "The operator list contains every measurement operator exactly once and lookups round-trip", "statement": "The internal operator list contains exactly one entry for every combination of party, allowed source copies, setting and outcome, and translating a monomial to indices and back is the identity.", "quantifier": "all scenarios (any number of parties, sources, levels, settings, outcomes) and all monomials over them", "why_tests_cant": "the list is generated by nested loops over arbitrary cardinalities", "anchors": ["inflation/InflationProblem.py:_lexorder", "inflation/InflationProblem.py:mon_to_lexrepr", "inflation/InflationProblem.py:inflation_indices_per_party", "inflation/sdp/fast_npa.py:nb_mon_to_lexrepr", "inflation/sdp/fast_npa.py:nb_lexorder_idx"]}
{"id": "C13", "title": "Effective settings encode private setting and parents' outcomes faithfully", "statement": "For every party the effective setting index is a bijection with tuples (private setting, outcomes of the observed parents): decoding is injective and onto, so no two do-conditionals are conflated and none is missing.", "quantifier": "all DAGs with visible-to-visible edges and all cardinalities", "why_tests_cant": "mixed-radix arithmetic for arbitrary radices", "anchors": ["inflation/InflationProblem.py:effective_to_parent_settings", "inflation/InflationProblem.py:settings_per_party"]}
{"id": "C14", "title": "Inflation symmetries are exactly the group of source-copy relabellings", "statement": "The discovered symmetries are permutations of the operator list; there is one for every combination of permutations of the copies of each source, the identity is included, and the set is closed under composition and inverse.", "quantifier": "all scenarios and inflation levels", "why_tests_cant": "factorially many permutations for arbitrary levels", "anchors": ["inflation/InflationProblem.py:discover_lexorder_symmetries", "inflation/utils.py:perm_combiner", "inflation/utils.py:format_permutations", "inflation/sdp/fast_npa.py:apply_source_perm"]}
{"id": "C15", "title": "Symmetries respect commutation, orthogonality and canonical equality", "statement": "Applying an inflation symmetry to two operators does not change whether they commute or are orthogonal; consequently symmetric images of equal monomials are equal.", "quantifier": "all scenarios, all symmetries, all monomials", "why_tests_cant": "for all permutations and words", "anchors": ["inflation/sdp/fast_npa.py:nb_operators_commute", "inflation/sdp/fast_npa.py:commutation_matrix", "inflation/InflationProblem.py:discover_lexorder_symmetries", "inflation/sdp/fast_npa.py:to_canonical_1d_internal"]}
{"id": "C16", "title": "LP moments are identified exactly when they are related by a symmetry", "statement": "In the LP, two monomials are given the same orbit representative exactly when some inflation symmetry maps one to the other, and the representative is the smallest index in the orbit.", "quantifier": "all finite monomial lists and all symmetry groups acting on them", "why_tests_cant": "order-dependence of an in-place loop over all group elements", "anchors": ["inflation/lp/InflationLP.py:_discover_inflation_orbits"]}
{"id": "C17", "title": "Which representative an LP atomic moment gets does not depend on earlier calls", "statement": "Creating atomic moments in any order gives each event the same representative (a fixed function of its symmetry orbit), and two events get the same atomic moment exactly when a symmetry maps one to the other.", "quantifier": "all call histories and all symmetry groups", "why_tests_cant": "all call orders of a mutable cache", "anchors": ["inflation/lp/InflationLP.py:_AtomicMonomial"]}
{"id": "C18", "title": "The moment matrix is symmetric and equates entries exactly when the moments are equal", "statement": "The generated moment matrix is symmetric; an entry is 0 exactly when the corresponding product vanishes; two non-zero entries carry the same index exactly when the canonical products are equal up to reversal (adjoint).", "quantifier": "all lists of generating monomials and all commutation/orthogonality data", "why_tests_cant": "all pairs of matrix positions of a matrix of unbounded size filled with a mutable index table", "anchors": ["inflation/sdp/quantum_tools.py:calculate_momentmatrix_1d_internal", "inflation/sdp/quantum_tools.py:calculate_momentmatrix"]}
{"id": "C19", "title": "SDP variables are merged exactly along symmetry orbits", "statement": "After applying the inflation symmetries, two moment-matrix entries carry the same variable exactly when some symmetry maps one onto the other, and the representative chosen is the smallest original index of the orbit.", "quantifier": "all moment matrices and symmetry groups acting compatibly on them", "why_tests_cant": "order-dependent in-place merging over all symmetries", "anchors": ["inflation/sdp/quantum_tools.py:apply_inflation_symmetries", "inflation/sdp/InflationSDP.py:_discover_columns_symmetries"]}
{"id": "C20", "title": "A moment is 'knowable' exactly when it is an event of the original network", "statement": "An atomic moment is flagged knowable exactly when relabelling source copies turns it into one in which each party appears at most once and every source is on its first copy.", "quantifier": "all monomials with at least one operator", "why_tests_cant": "all relabellings of all monomials", "anchors": ["inflation/sdp/fast_npa.py:nb_is_knowable"]}
{"id": "C21", "title": "Moments flagged as physical are non-negative in every quantum model", "statement": "If a monomial is flagged physical then its expectation value is non-negative in every algebra of projectors where operators commute according to the problem and in every state (sandwiching reduction included).", "quantifier": "all monomials, all commutation tables, all representations and positive states", "why_tests_cant": "positivity in every Hilbert-space model", "anchors": ["inflation/sdp/fast_npa.py:nb_is_physical", "inflation/sdp/fast_npa.py:nb_indices_of_more_than_one_op_per_party_per_factor"]}
{"id": "C22", "title": "Marginals computed from a distribution are the true marginals", "statement": "The value computed for a knowable atomic moment is the sum of the given distribution over the outcomes of the absent parties with the present parties' outcomes and settings fixed.", "quantifier": "all distributions, all numbers of parties, all atoms listing parties in increasing order (a counterexample is proved for other orders)", "why_tests_cant": "arbitrary-rank tensors", "anchors": ["inflation/sdp/monomial_utils.py:compute_marginal", "inflation/lp/monomial_classes.py:InternalAtomicMonomial.compute_marginal"]}
{"id": "C23", "title": "For no-signalling distributions the marginal does not depend on absent parties' settings and normalises", "statement": "If the distribution is no-signalling, the marginal assigned to a moment is the same for every choice of the absent parties' settings; summing a marginal over one party's outcome gives the marginal without that party; the empty moment has value 1 for a normalised distribution.", "quantifier": "all no-signalling distributions of any number of parties", "why_tests_cant": "real-valued universally quantified identity", "anchors": ["inflation/sdp/monomial_utils.py:compute_marginal"]}
{"id": "C24", "title": "A product moment does not depend on the order of its factors", "statement": "Building a compound moment from any reordering of the same factors gives an equal moment with the same name and the same knowability classification, which is always one of Knowable / Semi / Unknowable according to whether none, some or all factors are unknowable.", "quantifier": "all factor lists and permutations", "why_tests_cant": "all permutations of unbounded factor lists", "anchors": ["inflation/lp/monomial_classes.py:CompoundMoment.__init__", "inflation/lp/monomial_classes.py:CompoundMoment.knowability_status"]}
{"id": "C25", "title": "Evaluating a moment against known values is sound", "statement": "Evaluating a compound moment returns (value, unknown remainder, status) such that in every assignment of real values to moments that is multiplicative over factors and agrees with the known values, moment = value \u00d7 remainder; 'Known' implies no remainder except when the numeric product is (numerically) zero.", "quantifier": "all moments, all dictionaries of known values, all multiplicative assignments", "why_tests_cant": "all real-valued assignments", "anchors": ["inflation/lp/monomial_classes.py:CompoundMoment.evaluate", "inflation/lp/monomial_classes.py:CompoundMoment.attempt_division_by"]}
{"id": "C26", "title": "Setting a distribution leaves no trace of earlier ones", "statement": "After setting values, the known moments, semi-known moments and extra constraints are a function of the last call only, whatever was set before. (False for support problems, where lower bounds accumulate: negation proved.)", "quantifier": "all histories of API calls", "why_tests_cant": "unbounded call histories", "anchors": ["inflation/lp/InflationLP.py:set_values", "inflation/lp/InflationLP.py:_reset_values", "inflation/lp/InflationLP.py:set_distribution", "inflation/sdp/InflationSDP.py:set_values"]}
{"id": "C27", "title": "A moment is never both known and semi-known, and the unit moment is always known to be 1", "statement": "After any sequence of value-setting calls, the sets of known and semi-known moments are disjoint and the unit moment is known with value one.", "quantifier": "all call histories and value dictionaries not overwriting the unit", "why_tests_cant": "invariant over unbounded histories", "anchors": ["inflation/lp/InflationLP.py:update_values", "inflation/lp/InflationLP.py:set_values", "inflation/lp/InflationLP.py:_cleanup_after_set_values"]}
{"id": "C28", "title": "Every LP constraint generated holds for every genuine distribution", "statement": "Each generated normalisation equality and each positivity inequality (inclusion-exclusion over last outcomes) is satisfied by every non-negative no-signalling assignment; each inequality evaluates exactly to the probability of one joint outcome of a maximal compatible set.", "quantifier": "all problems and all assignments of probabilities to events that arise by marginalisation", "why_tests_cant": "all distributions and exponentially many events", "anchors": ["inflation/lp/InflationLP.py:_discover_normalization_eqns", "inflation/lp/InflationLP.py:_discover_inequalities", "inflation/lp/InflationLP.py:_raw_monomials_as_lexboolvecs"]}
{"id": "C29", "title": "LP solver encodings describe the stated feasible set", "statement": "The sparse constraint rows, known-value rows and bound rows passed to the solver are satisfied by an assignment exactly when it satisfies the user's equalities, inequalities, known values and bounds.", "quantifier": "all constraint systems and all real assignments", "why_tests_cant": "equality of two polyhedra", "anchors": ["inflation/lp/lp_utils.py:solveLP_sparse", "inflation/lp/lp_utils.py:convert_dicts", "inflation/lp/lp_utils.py:to_sparse", "inflation/utils.py:expand_sparse_vec", "inflation/utils.py:vstack"]}
{"id": "C30", "title": "Relaxed feasibility problems answer the original question", "statement": "When feasibility is checked as an optimisation of a slack, the optimal slack is non-negative (respectively zero) exactly when the original constraints are satisfiable.", "quantifier": "all linear systems", "why_tests_cant": "all real-valued systems", "anchors": ["inflation/lp/lp_utils.py:solveLP_sparse"]}
{"id": "C31", "title": "Infeasibility certificates are valid", "statement": "A certificate returned from a dual solution is non-negative on every value assignment compatible with the causal scenario; hence a negative value proves incompatibility. (False when nontrivial bounds are present: the certificate omits their contribution; a counterexample is proved.)", "quantifier": "all linear programs, all dual-feasible solutions, all feasible right-hand sides", "why_tests_cant": "weak duality for all programs", "anchors": ["inflation/lp/lp_utils.py:solveLP_sparse", "inflation/lp/InflationLP.py:certificate_as_dict"]}
{"id": "C32", "title": "Eliminating semi-known moments does not change the SDP's feasible set", "statement": "Replacing each semi-known moment by its factor times the other moment yields a problem with the same solutions for the remaining moments, provided the other moment is itself neither semi-known nor known (counterexamples proved otherwise).", "quantifier": "all moment matrices as affine functions, all semi-known dictionaries", "why_tests_cant": "all affine matrix pencils", "anchors": ["inflation/sdp/sdp_utils.py:solveSDP_MosekFUSION"]}
{"id": "C33", "title": "User-supplied extra constraints reach the solver", "statement": "Every extra equality or inequality set by the user is present in the arguments given to the solver. (True for the LP; false for the SDP: negation proved.)", "quantifier": "all problems and extra constraints", "why_tests_cant": "all constraint lists; effect is an omission invisible unless the constraint is active", "anchors": ["inflation/lp/InflationLP.py:_prepare_solver_arguments", "inflation/sdp/InflationSDP.py:_prepare_solver_arguments", "inflation/sdp/InflationSDP.py:set_extra_equalities"]}
{"id": "C34", "title": "Memoised canonicalisation returns what direct canonicalisation would", "statement": "Whatever was canonicalised before, the memoised canonical form equals the unmemoised one. (False because the cache key ignores apply_only_commutations: negation proved; true for histories using one flag value.)", "quantifier": "all histories of calls", "why_tests_cant": "all call orders on a mutable cache", "anchors": ["inflation/sdp/InflationSDP.py:_to_canonical_memoized_1d"]}
{"id": "C35", "title": "Merging extra constraints and reading them back is stable", "statement": "Reading the list of all equalities (inequalities) always reflects the currently set extra constraints. (False: the by-name views are cached and go stale, and preparing unbounded solver arguments appends bounds to the cached list: negation proved.)", "quantifier": "all call histories", "why_tests_cant": "all interleavings of setters and readers", "anchors": ["inflation/lp/InflationLP.py:moment_equalities_by_name", "inflation/lp/InflationLP.py:moment_inequalities_by_name", "inflation/lp/InflationLP.py:_prepare_solver_arguments"]}
{"id": "C36", "title": "Cleaning a certificate rescales it by a positive factor up to the documented rounding", "statement": "Cleaning a certificate's coefficients divides all of them by one positive number, zeroes those whose quotient is within the tolerance and moves every other coefficient by at most half a unit of the last kept decimal; signs never flip, and no coefficient above the tolerance is lost. (The documented statement that coefficients below the tolerance become zero is false, as the comparison is made after rescaling; and the rounding can turn a valid certificate into an invalid one. Both proved.)", "quantifier": "all coefficient dictionaries, tolerances and numbers of decimals", "why_tests_cant": "all real coefficient vectors", "anchors": ["inflation/utils.py:clean_coefficients"]}
{"id": "C37", "title": "Bisection for the critical parameter brackets the true critical value", "statement": "The value returned by the bisection mode always has, within the tolerance, a parameter whose objective is above and one whose objective is below the target level; it is never below a feasible range by more than the tolerance, it is within the tolerance of the place where a monotone objective crosses the level, the search converges, and the certificate returned is that of the value. (The level is -precision/2048, so the true critical parameter may be missed by more than the precision, and the assertions on the end points do not guarantee that the search starts; both proved.)", "quantifier": "all monotone oracles, all brackets and precisions", "why_tests_cant": "all monotone functions", "anchors": ["inflation/optimization_utils.py:max_within_feasible", "inflation/optimization_utils.py:_maximize_via_bisect"]}
{"id": "C38", "title": "Certificate-driven maximisation never discards feasible parameters", "statement": "In dual mode no feasible parameter exceeds any of the computed bounds or the returned value, if the certificates are sound and the inner optimisation finds the global maximum, or a local one and feasibility is monotone; the bounds decrease by more than the precision until the last one; the loop terminates. (A local method discards feasible parameters otherwise; the call raises if the whole interval is feasible; the returned value can be weaker than a bound already found. All proved.)", "quantifier": "all certificates valid in the sense of C31 and all parameters", "why_tests_cant": "all certificate sequences", "anchors": ["inflation/optimization_utils.py:_maximize_via_dual", "inflation/optimization_utils.py:max_within_feasible"]}
{"id": "C39", "title": "An exported LP or MPS file says the same as the problem", "statement": "Reading back a file written with write_to_file in LP or MPS format gives the problem: one row per constraint with the same meaning once known values are substituted, the same objective including its constant, and every bound as a statement of its own. (False in parts: bounds share one line in LP files, constraints among known values are dropped even if violated, a constant objective is dropped in LP files, MPS numbers are rounded to four decimals, unbounded variables become non-negative: each negation is proved.)", "quantifier": "all problems (equalities, inequalities, known and semi-known variables, bounds, objectives), all number formats that can be read back, all set iteration orders", "why_tests_cant": "needs all problems and all bounds; tests only compare a few files", "anchors": ["inflation/lp/writer_utils.py:write_to_lp", "inflation/lp/writer_utils.py:write_to_mps", "inflation/lp/writer_utils.py:process_arguments", "inflation/lp/writer_utils.py:format_constraint_lp"]}
{"id": "C40", "title": "Names identify operators and moments", "statement": "Within a problem two different operators have different display names, so reading a name back yields the operator it was printed from; moments with the same name consist of the same measurements (party, setting, outcome, do-values), products with the same name have the same factors with the same powers, and the name of a moment is accepted wherever a moment is expected.", "quantifier": "all problems whose party names avoid the separator characters, all moments and products of moments, every iteration order of Python sets", "why_tests_cant": "string injectivity for arbitrary cardinalities and numbers of operators", "anchors": ["inflation/InflationProblem.py:_interpretation_to_name", "inflation/InflationProblem.py:_lexrepr_to_names", "inflation/sdp/fast_npa.py:to_name"]}
{"id": "C41", "title": "Normalisation equalities added by the SDP hold in every model", "statement": "Every normalisation equality produced (sum over outcomes of one operator in a moment = moment without it, last outcome expressed via the others) holds for all moments of every quantum model with complete measurements.", "quantifier": "all monomials and all models", "why_tests_cant": "all representations", "anchors": ["inflation/sdp/quantum_tools.py:construct_normalization_eqs", "inflation/sdp/quantum_tools.py:expand_moment_normalisation"]}
{"id": "C42", "title": "Generating sets contain no duplicates and no zero operators", "statement": "The columns built from a hierarchy specification are pairwise distinct canonical monomials, contain no vanishing operator, start with the unit, and contain every canonical non-zero product of the specified shape.", "quantifier": "all specifications and problems", "why_tests_cant": "all specifications", "anchors": ["inflation/sdp/InflationSDP.py:_build_cols_from_specs", "inflation/sdp/InflationSDP.py:build_columns"]}
{"id": "C43", "title": "Objective rewriting preserves the objective value", "statement": "Substituting known values and semi-known relations into the objective leaves its value unchanged on every feasible assignment, and minimising is maximising the negated objective with the sign restored in the reported value.", "quantifier": "all objectives, value dictionaries, assignments", "why_tests_cant": "all assignments", "anchors": ["inflation/lp/InflationLP.py:set_objective", "inflation/lp/InflationLP.py:_update_objective", "inflation/sdp/InflationSDP.py:_update_objective"]}
{"id": "C44", "title": "Solving again after any change cannot report a stale result", "statement": "Every call that changes the problem discards the stored status and solution.", "quantifier": "all call histories", "why_tests_cant": "all interleavings", "anchors": ["inflation/lp/InflationLP.py:_reset_solution", "inflation/lp/InflationLP.py:reset", "inflation/sdp/InflationSDP.py:_reset_solution"]}
{"id": "C45", "title": "The DAG is translated faithfully into the tables that drive commutation and factorisation", "statement": "For every source and pair of parties, the table consulted by the commutation test says that the source links the parties exactly when both measure it directly (same party) or through a common intermediate latent, and that it links them quantumly exactly when in addition the source (and the latent) are nonclassical; the hypergraph marks exactly the parties a source reaches.", "quantifier": "all DAGs, latents, classical/nonclassical source declarations, party pairs", "why_tests_cant": "depends on arbitrary DAG shapes and iteration orders of sets", "anchors": ["inflation/InflationProblem.py:__init__ (hypergraph)", "inflation/InflationProblem.py:sources_to_check_for_party_pair_commutation"]}
{"id": "C46", "title": "Lower bounds of zero are only put on moments that are non-negative in every quantum model", "statement": "Every moment to which the SDP assigns the default lower bound 0 has a non-negative value in every symmetric state of every quantum model of the inflated network. (False: moments equal to their adjoint only up to an inflation symmetry are also bounded; a genuine i.i.d. quantum model with value -3/16 is proved. True for moments equal to their adjoint by commutations.)", "quantifier": "all problems, monomials and quantum models", "why_tests_cant": "quantifies over all operator algebras and states", "anchors": ["inflation/sdp/InflationSDP.py:generate_relaxation (hermitian_moments, moment_lowerbounds)", "inflation/sdp/monomial_classes.py:is_hermitian"]}
{"id": "C47", "title": "SDP moments are identified exactly along symmetry orbits whatever was computed before", "statement": "The representative of a reduced monomial is the first word, in dictionary order, reachable from it by inflation symmetries and commutations, whatever was computed before; two reduced monomials get the same representative exactly when one is reachable from the other. (False for monomials containing squares, whose representatives corrupt later ones: negation proved.)", "quantifier": "all problems, monomials and call histories", "why_tests_cant": "history-dependent memoisation", "anchors": ["inflation/sdp/InflationSDP.py:_to_inflation_repr_1d", "inflation/sdp/InflationSDP.py:_inflation_orbit_and_rep_1d", "inflation/sdp/InflationSDP.py:_to_canonical_memoized_1d"]}
{"id": "C48", "title": "True values stay true over every history", "statement": "If every value the user passes to set_values/update_values is the true value of its moment in some assignment of moments that factorises over atoms, then after any history of calls every recorded known value and every recorded semi-known relation is true of that assignment, so no feasible point is ever cut off by the bookkeeping. (If update_values later replaces a value by another, old semi-known relations survive; proved separately as C48_stale_semiknown.)", "quantifier": "all call histories, all moment assignments", "why_tests_cant": "history-dependent", "anchors": ["inflation/lp/InflationLP.py:update_values", "inflation/lp/InflationLP.py:set_values", "inflation/lp/monomial_classes.py:evaluate"]}
{"id": "C49", "title": "The reported moment matrix is that of the reported moments", "statement": "After solving an SDP, the matrix reported in the solution is the moment matrix of a solution with the reported values of the moments. (False for the default dual formulation: only the constant part is reported; proved.)", "quantifier": "all SDP problems and all points returned by the solver", "why_tests_cant": "Tests compare objective values and statuses; the matrix is only checked on a few problems.", "anchors": ["inflation/sdp/sdp_utils.py:solveSDP_MosekFUSION"]}
{"id": "C50", "title": "The reported certificate is the solver's certificate", "statement": "The dictionary, the value and the text reported for a certificate agree with the certificate found by the solver: exactly without cleaning, and up to a positive factor and 1/2000 per term with the default cleaning. (False when bounds are set on an SDP: the entries for the moment 1 and for the constant term collide and one of them is lost, so compatible points are reported incompatible; the SDP class also fails to print an empty certificate. Both proved.)", "quantifier": "all certificates, all values of the moments", "why_tests_cant": "Tests look at a few certificates of problems without bounds.", "anchors": ["inflation/sdp/InflationSDP.py:certificate_as_dict", "inflation/sdp/InflationSDP.py:evaluate_certificate", "inflation/sdp/InflationSDP.py:string_from_dict", "inflation/lp/InflationLP.py:certificate_as_dict", "inflation/lp/InflationLP.py:evaluate_certificate", "inflation/lp/InflationLP.py:string_from_dict"]}
{"id": "C51", "title": "An exported file says the same as the semidefinite problem", "statement": "Reading back a file written with write_to_file in SDPA format gives a program with the same solutions: every solution of the file comes from moment values that satisfy the problem (known values, proportionality, positivity, bounds, equalities, inequalities) with the same objective value up to the stated constant, and the other way round; every entry lies inside a declared block; and the export succeeds exactly when everything mentioned in the objective, bounds and constraints is a moment of the matrix. (False in parts, each negation proved: the sign of negative known values is lost, negative upper bounds are unreadable, a second inequality is written outside its block, the direction of optimisation is reversed, bounds on semi-known moments are dropped.)", "quantifier": "all problems of every size (moment matrices, known and semi-known moments, objectives, bounds, equalities, inequalities), all number formats that can be read back", "why_tests_cant": "needs all problems and all feasible points; tests only look at a few files", "anchors": ["inflation/sdp/writer_utils.py:write_to_sdpa", "inflation/sdp/writer_utils.py:write_to_mat", "inflation/sdp/writer_utils.py:convert_to_human_readable", "inflation/sdp/InflationSDP.py:write_to_file"]}
{"id": "C52", "title": "A distribution compatible with the classical network is never reported incompatible", "statement": "If a distribution is generated by a classical model of the causal structure (independent sources, each party responding to its setting, its parents' outcomes and its sources), then for every inflation set_distribution accepts it, and the linear program handed to the solver, with or without linearised constraints, after any history of truthful calls, is solved by the probabilities that the model gives to the events of the inflated network; the dual and relaxed formulations are bounded accordingly, and bounds on an objective hold for the model.", "quantifier": "all causal structures (with parent outcomes and private settings), inflation levels, finite models with probabilities in any ordered field, histories of truthful calls, solver formulations", "why_tests_cant": "quantifies over all causal models and all inflations; tests only solve a few programs on a few distributions", "anchors": ["inflation/lp/InflationLP.py:InflationLP", "inflation/lp/InflationLP.py:set_distribution", "inflation/lp/InflationLP.py:solve", "inflation/lp/InflationLP.py:_prepare_solver_arguments", "inflation/InflationProblem.py:InflationProblem", "inflation/lp/lp_utils.py:solveLP_sparse"]}
{"id": "C53", "title": "A certificate of incompatibility is a valid causal inequality", "statement": "After set_distribution without linearised constraints and solve, without bounds or objective, the certificate built from the multipliers the solver returns is non-negative at the moments of every classical model of the causal structure, whatever the distribution was and in every formulation; the reported dictionary (which drops entries up to 1e-8) is at least minus 1e-8 times the number of moments.", "quantifier": "all causal structures, inflations, distributions, solver formulations, multipliers feasible for the solver's problem, and classical models", "why_tests_cant": "quantifies over all models and all certificates", "anchors": ["inflation/lp/InflationLP.py:set_distribution", "inflation/lp/InflationLP.py:solve", "inflation/lp/InflationLP.py:certificate_as_dict", "inflation/lp/lp_utils.py:solveLP_sparse"]}
{"id": "C54", "title": "The SDP never excludes a distribution of a classical causal model", "statement": "If a distribution is generated by a classical model of the causal structure drawn by the user (independent sources, intermediate latents, outcomes that depend on parents' outcomes), then for every inflation and every generating set of monomials containing the unit set_distribution accepts it, no exception is raised, and the semidefinite program handed to the solver has a feasible point; the dual problem and the feasibility-as-optimisation problem never have a negative value. After any history of truthful calls the objective bound holds for the model.", "quantifier": "all causal structures, inflation levels, generating sets, finite classical models, histories of truthful calls and of memoised computations, solver flags", "why_tests_cant": "quantifies over all causal models and all inflations; tests only solve a few programs on a few distributions", "anchors": ["inflation/sdp/InflationSDP.py:InflationSDP", "inflation/sdp/InflationSDP.py:generate_relaxation", "inflation/sdp/InflationSDP.py:set_distribution", "inflation/sdp/InflationSDP.py:_prepare_solver_arguments", "inflation/sdp/InflationSDP.py:solve", "inflation/sdp/sdp_utils.py:solveSDP_MosekFUSION"]}
{"id": "C55", "title": "A certificate obtained from the SDP is a valid causal inequality for classical models", "statement": "After set_distribution without linearised constraints and solve, the reported certificate evaluated on the values that set_distribution records for any distribution of a classical causal model is at least minus the clean-up tolerance times the number of known moments; so a distribution whose certificate is more negative has no classical causal model.", "quantifier": "all causal structures, inflations, generating sets, distributions, multipliers feasible for the solver's dual problem, and classical models", "why_tests_cant": "quantifies over all models and all certificates", "anchors": ["inflation/sdp/InflationSDP.py:set_distribution", "inflation/sdp/InflationSDP.py:solve", "inflation/sdp/InflationSDP.py:certificate_as_dict", "inflation/sdp/sdp_utils.py:solveSDP_MosekFUSION"]}
{"id": "C56", "title": "The SDP never excludes a distribution of a quantum model of the inflated network", "statement": "For every state and family of projective measurements on the inflated network (operators commute and are orthogonal where the causal structure says so, the state is symmetric under exchange of copies and factorises over disjoint sets of copies), set_distribution of the corresponding distribution raises nothing and the semidefinite program has the model's moments as a feasible point.", "quantifier": "all causal structures, inflation levels, generating sets, quantum models of any dimension, histories of truthful calls", "why_tests_cant": "quantifies over all operator algebras and states", "anchors": ["inflation/sdp/InflationSDP.py:InflationSDP", "inflation/sdp/InflationSDP.py:generate_relaxation", "inflation/sdp/InflationSDP.py:set_distribution", "inflation/sdp/InflationSDP.py:solve"]}
{"id": "C57", "title": "A certificate obtained from the SDP is a valid inequality for quantum models of the inflated network", "statement": "After set_distribution without linearised constraints and solve, the certificate built from the solver's multipliers is non-negative at the moments of every quantum model of the inflated network.", "quantifier": "all causal structures, inflations, generating sets, distributions, feasible multipliers, quantum models", "why_tests_cant": "quantifies over all operator algebras and states", "anchors": ["inflation/sdp/InflationSDP.py:set_distribution", "inflation/sdp/InflationSDP.py:solve", "inflation/sdp/InflationSDP.py:certificate_as_dict"]}
{"id": "C58", "title": "The linear program of a nonfanout inflation never excludes what a physical theory can do", "statement": "When no source is declared classical, the variables of the linear program are probabilities of outcomes of measurements that can be performed together. For every assignment of probabilities to such joint events that is non-negative, non-signalling, invariant under exchange of copies and factorising over disjoint sets of copies (classical, quantum or any generalised probabilistic theory), set_distribution of the distribution it gives to the original network is accepted, and after any history of truthful calls the program handed to the solver is feasible, its dual is bounded and its relaxed form is not negative. In particular this holds for all quantum networks: a density matrix for every source, a projective measurement for every party, setting and outcome of its parents.", "quantifier": "all causal structures, inflation levels, classical/nonclassical assignments of sources and latents, theories, quantum networks of any dimension, histories of truthful calls", "why_tests_cant": "quantifies over all theories, all dimensions and all networks; an unsound row of the program would only show for some of them", "anchors": ["inflation/lp/InflationLP.py:InflationLP", "inflation/lp/InflationLP.py:_generate_lp", "inflation/lp/InflationLP.py:set_distribution", "inflation/lp/InflationLP.py:solve", "inflation/InflationProblem.py:InflationProblem"]}
{"id": "C59", "title": "A certificate of the nonfanout linear program is a valid inequality in every physical theory", "statement": "Set any distribution without linearised constraints, solve in any form, and evaluate the certificate on the probabilities that a theory gives to the inflated network: it is not negative, and the reported dictionary (small entries dropped) not below -1e-8 times the number of moments. So a negative certificate excludes classical, quantum and more general explanations.", "quantifier": "all causal structures, inflations, distributions, feasible multipliers, theories, quantum networks", "why_tests_cant": "quantifies over all theories and all solver outputs", "anchors": ["inflation/lp/InflationLP.py:set_distribution", "inflation/lp/InflationLP.py:solve", "inflation/lp/InflationLP.py:certificate_as_dict", "inflation/lp/lp_utils.py:solveLP_MOSEK"]}
{"id": "C60", "title": "Every accepted way of writing a moment denotes that moment", "statement": "Values, bounds, objectives and constraints of the LP are given as dictionaries from moments to numbers. The name and the SymPy symbol of a moment of the table denote that moment at every later time, and different moments have different names; a list of operators, given by numbers, rows or names between angle brackets, denotes the moment whose value in every model is the probability that all the operators happen; lists that are equal as sets up to an exchange of copies of sources denote the same moment, whatever was read in between; a product of names or symbols denotes the product.", "quantifier": "all problems and party names, all states of the table reachable by creating the columns and then reading any moments in any form and combining atoms, all lists of operators, all classical models", "why_tests_cant": "the table of moments and the cache of atoms grow with every reading, so the meaning of a name could depend on the history; which problems have names that collide or numbers that overflow cannot be found by sampling", "anchors": ["inflation/lp/InflationLP.py:_sanitise_monomial", "inflation/lp/InflationLP.py:_interpret_name", "inflation/lp/InflationLP.py:_interpret_atomic_string", "inflation/lp/InflationLP.py:_monomial_from_atoms", "inflation/lp/InflationLP.py:Monomial", "inflation/sdp/monomial_utils.py:symbol_from_atom_name", "inflation/InflationProblem.py:_np_dtype"]}
{"id": "C61", "title": "Building, filling and solving the LP never fails", "statement": "For every problem that InflationProblem accepts with at most 254 copies of sources in total: the constructor of InflationLP succeeds (its assertions that the first moment is the unit and that the moments of the columns are pairwise different hold); dropping factors of a moment of the program leaves a moment of the program; set_distribution accepts every array of the right shape, compatible or not, and sets moments of the program only; after any sequence of calls that mention only moments of the program and contain no constraint without coefficients, solve reaches the solver with a well-defined task for all options. Together with soundness: the distribution of a causal model (classical, quantum or of a more general theory) goes through the whole pipeline and the program is feasible. A constraint without coefficients above 1e-8, in particular {}, makes every later solve raise.", "quantifier": "all accepted problems with at most 254 copies of sources, all arrays, all finite sequences of public calls mentioning only moments of the program, all solver options, all causal models", "why_tests_cant": "whether two columns of the program get the same moment depends on the whole orbit structure of the inflation, and whether every key used later exists depends on all earlier calls; the sizes at which programs become interesting are out of reach of tests", "anchors": ["inflation/lp/InflationLP.py:_generate_lp", "inflation/lp/InflationLP.py:monomials", "inflation/lp/InflationLP.py:set_distribution", "inflation/lp/InflationLP.py:_prepare_solver_matrices", "inflation/lp/InflationLP.py:solve", "inflation/lp/lp_utils.py:drop_zero_rows", "inflation/lp/lp_utils.py:solveLP_sparse"]}
{"id": "C62", "title": "Named views and exports describe the problem that is solved", "statement": "moment_equalities and moment_inequalities have one dictionary per row of the matrices given to the solver, with different moments of the program as keys and the same value at every assignment. After any public calls, if the stored by-name lists are up to date (no stored list read before the extra constraints were last changed), the dictionary handed to the writers by write_to_file can be prepared, declares every variable it uses, the i-th being the i-th moment, has each key once in each dictionary, has the recorded objective, and a point satisfies it exactly when it satisfies the recorded values, proportionalities, generated and extra constraints and bounds; read back, the rows of the LP file hold of the values of the moments exactly when these satisfy every constraint involving some moment without recorded value. Absorbing the bounds into the inequalities keeps the solutions with unit 1 for the matrices, and by name unless the unit is bounded (then it is false).", "quantifier": "all accepted problems with at most 254 copies of sources and ordinary party names, all sequences of public calls, all assignments of values to moments", "why_tests_cant": "whether two moments share a name, whether a row has a column twice and whether a cached list is stale depends on the whole program and on the history of calls", "anchors": ["inflation/lp/InflationLP.py:moment_equalities", "inflation/lp/InflationLP.py:moment_inequalities", "inflation/lp/InflationLP.py:moment_equalities_by_name", "inflation/lp/InflationLP.py:semiknown_by_name", "inflation/lp/InflationLP.py:_prepare_solver_arguments", "inflation/lp/InflationLP.py:_prepare_solver_matrices", "inflation/lp/InflationLP.py:write_to_file", "inflation/lp/writer_utils.py:write_to_lp", "inflation/utils.py:expand_sparse_vec"]}
{"id": "C63", "title": "Factorization conditions exist, are complete and hold in every model", "statement": "After any readings of moments, factorization_conditions and quadratic_factorization_conditions, also by name and by column number, can be computed: they have exactly one entry for each moment of the program that is a product of two or more factors; the entry lists moments of the program with one factor each (or the first factor and the product of the others) that multiply to it; the values of the columns in any classical model, quantum network or more general theory of the causal structure satisfy them all.", "quantifier": "all accepted problems with at most 254 copies of sources and ordinary party names, all reachable states of the table of moments, all classical models, quantum networks and theories", "why_tests_cant": "every lookup of a factor could raise KeyError, which depends on whether the columns are closed under taking factors; soundness quantifies over all models", "anchors": ["inflation/lp/InflationLP.py:factorization_conditions", "inflation/lp/InflationLP.py:quadratic_factorization_conditions", "inflation/lp/InflationLP.py:factorization_conditions_by_name", "inflation/lp/InflationLP.py:sparse_factorization_conditions", "inflation/lp/InflationLP.py:quadratic_factorization_conditions_by_name", "inflation/lp/InflationLP.py:sparse_quadratic_factorization_conditions", "inflation/utils.py:partsextractor"]}
{"id": "C64", "title": "max_within_feasible never misses a model and what it returns is certified", "statement": "max_within_feasible on a linear program without bounds and objective: with bisection, if it returns x then some parameter at x, or above it by less than the tolerance, is excluded: no classical model (or, for nonfanout inflations, no quantum network and no more general theory) has the prescribed moments there; so if all parameters up to v have a model, x is not below v by the tolerance. With certificates, no parameter with a model exceeds the returned value or any intermediate bound. The result does not depend on values or extra constraints set before the search.", "quantifier": "all accepted problems, all symbolic values, all search options, all histories of calls without bounds and objective, all solvers whose objective values are right up to less than precision/2048 (whose certificates come from multipliers of the task), all models", "why_tests_cant": "it composes a search, a mutable program and a solver, and compares the result with infinitely many models", "anchors": ["inflation/optimization_utils.py:max_within_feasible", "inflation/optimization_utils.py:_maximize_via_bisect", "inflation/optimization_utils.py:_maximize_via_dual", "inflation/utils.py:make_numerical", "inflation/lp/InflationLP.py:solve"]}
{"id": "C65", "title": "The optimum reported by solve bounds the objective the user wrote, in every model", "statement": "After set_objective (maximise or minimise) and any other calls that leave the objective alone and say only true things, the objective value reported by solve is an upper bound (a lower bound) on the combination of moments the user wrote, in every classical model, every quantum network and, for nonfanout linear programs, every more general theory. For a functional of the observed distribution it bounds the value at every distribution that a model generates; for products of operators it bounds the combination of the probabilities that the written events happen.", "quantifier": "all accepted problems, all objectives, both directions, all histories, primal and dual form, all solvers whose objective value is right up to delta, all models of any dimension", "why_tests_cant": "it compares one reported number with the value of an arbitrary expression in infinitely many models, through a sign convention, the reading of the objective and the solver interface", "anchors": ["inflation/lp/InflationLP.py:set_objective", "inflation/lp/InflationLP.py:solve", "inflation/sdp/InflationSDP.py:set_objective", "inflation/sdp/InflationSDP.py:solve", "inflation/sdp/InflationSDP.py:_sanitise_dict", "inflation/sdp/InflationSDP.py:_sanitise_moment", "inflation/lp/lp_utils.py:solveLP", "inflation/sdp/sdp_utils.py:solveSDP_MosekFUSION"]}
{"id": "C66", "title": "max_within_feasible on a semidefinite program never misses a parameter that a model explains", "statement": "If the bisection on an InflationSDP returns x, then at x or above it by less than the tolerance there is a parameter whose values no model of the causal structure explains (classical models, quantum networks, models of the inflated network); so if every parameter up to v has a model, x is not below v by more than the tolerance. If the search with certificates returns x and the inner optimisation is exact, every parameter of the interval that a model explains is at most x and at most every intermediate bound. The program may have been used before in any way that raised no exception and set no objective.", "quantifier": "all accepted problems, all relaxations, all symbolic values in one symbol, all options, all histories before the search, all solvers whose objective value or certificate is right, all models of any dimension", "why_tests_cant": "it compares the outcome of an adaptive search over a stateful program with all models at all parameters; tests try a few families with one solver", "anchors": ["inflation/optimization_utils.py:max_within_feasible", "inflation/optimization_utils.py:_maximize_via_bisect", "inflation/optimization_utils.py:_maximize_via_dual", "inflation/sdp/InflationSDP.py:set_values", "inflation/sdp/InflationSDP.py:solve", "inflation/sdp/InflationSDP.py:certificate_as_dict"]}
{"id": "C67", "title": "The name of a moment of a semidefinite program denotes that moment", "statement": "In an InflationSDP whose party names contain none of the separators and brackets used in names, the name of every moment made so far is read back as this moment by everything that accepts names (set_values, set_objective, set_bounds, certificates), now and after any further moments have been made; two different moments never have the same name, whatever the order in which they or their adjoints were made; and no name is '1', '0' or 'constant_term' except for the moments meant. So a certificate keyed by names determines the certificate keyed by moments.", "quantifier": "all accepted problems, all admissible party names, all relaxations, all sequences of reading and combining moments (including the memoised canonical forms and adjoints)", "why_tests_cant": "the names come from a stateful table which is overwritten on collision; a collision could appear for any scenario and any order of calls, tests only look up a few names in a fresh program", "anchors": ["inflation/sdp/InflationSDP.py:_monomial_from_atoms", "inflation/sdp/InflationSDP.py:_interpret_name", "inflation/sdp/InflationSDP.py:_sanitise_moment", "inflation/lp/monomial_classes.py:CompoundMoment", "inflation/lp/monomial_classes.py:InternalAtomicMonomial", "inflation/sdp/monomial_classes.py:InternalAtomicMonomialSDP", "inflation/sdp/monomial_utils.py:name_from_atom_names"]}
{"id": "C68", "title": "Generating a relaxation succeeds", "statement": "generate_relaxation returns for every problem and every NPA level, local level or list of products of parties: the moments and the indices of the moment matrix are in bijection (the assertion that no two indices are the same monomial never fails), every index of a normalisation equality is known, and no exception is raised, whatever moments were computed before. With set_distribution, a distribution that the network can produce classically is then never excluded, with no assumption on the program that was built.", "quantifier": "all accepted problems (at most 254 copies of sources in total), all NPA and local levels and lists of products of parties, all generating sets preserved by relabelling copies, all states of the memoised representatives", "why_tests_cant": "the assertion compares representatives (least elements of orbits of moments, computed by memoised functions after factorisation) with indices (orbits of cells under the permutations of columns); they could disagree for any scenario, level and memo state; tests generate a handful of relaxations", "anchors": ["inflation/sdp/InflationSDP.py:generate_relaxation", "inflation/sdp/InflationSDP.py:build_columns", "inflation/sdp/InflationSDP.py:_build_cols_from_specs", "inflation/sdp/InflationSDP.py:_discover_normalization_eqns", "inflation/sdp/InflationSDP.py:Moment_1d", "inflation/sdp/InflationSDP.py:momentmatrix_and_inverse"]}
{"id": "C69", "title": "Named generating sets are what their names say", "statement": "With column_specification='physicalN' (or one digit per party) the columns are exactly the products of outcomes of pairwise compatible measurements, no measurement twice, within max_monomial_length and the levels of the parties: no such product is missing, none is there twice under another spelling, the unit is there, shorter products come first. The set is preserved by relabelling copies, so generate_relaxation returns for it as for every other string that is understood, and a distribution which the network produces classically is never excluded. 'npaN' is read as level N, 'local012' as one level per party, 'local1' as one level for all.", "quantifier": "all accepted problems, all levels, all values of max_monomial_length, all strings that are read; for the relaxation: at most 254 copies of sources and parties with children having two outcomes", "why_tests_cant": "the columns are assembled from sorted templates, cliques of compatible measurements and unpacked boolean vectors, in a number of ways that grows exponentially; tests compare a few small sets; a missing product silently weakens the relaxation", "anchors": ["inflation/sdp/InflationSDP.py:build_columns", "inflation/sdp/InflationSDP.py:generate_relaxation", "inflation/sdp/InflationSDP.py:_build_cols_from_specs"]}
{"id": "C70", "title": "Linearised polynomial constraints never exclude a distribution which the network produces", "statement": "generate a relaxation and call set_distribution(P, use_lpi_constraints=True) for a P which the network produces classically: no exception is raised, every linearised constraint handed to the solver says that a moment is a number times a moment that is itself left free (not known, not eliminated), the problem handed to the solver is feasible, and no dual point is negative. Separation holds after any earlier use of the program with values for atoms.", "quantifier": "all accepted problems, models, generating sets with the unit, all distributions that give no product of factors of a moment a value strictly between 0 and 1e-8; for separation all histories of calls without update_values", "why_tests_cant": "whether a linearised constraint is sound depends on which factors of all moments are known, on adjoints of atoms and on the order in which solver variables are eliminated; tests check a few numbers", "anchors": ["inflation/sdp/InflationSDP.py:set_distribution", "inflation/sdp/InflationSDP.py:update_values", "inflation/sdp/sdp_utils.py:solveSDP_MosekFUSION"]}
{"id": "C71", "title": "Generating sets returned as expressions or written as arrays are read back as the same generating sets", "statement": "build_columns(spec, symbolic=True) returns SymPy expressions; giving that list back to build_columns or generate_relaxation gives the same columns in the same order, and different columns have different expressions. The same holds for the columns written as two-dimensional or one-dimensional arrays, and lists of party blocks give the products of the operators of the parties.", "quantifier": "all problems with admissible party names, all lists of words of operators (not only those that build_columns makes), all contents of the table of atom names", "why_tests_cant": "the expressions pass through symbols, operator names, a dictionary of all spellings and SymPy's combination of factors; a test tries a few columns of one network", "anchors": ["inflation/sdp/InflationSDP.py:build_columns", "inflation/sdp/InflationSDP.py:_interpret_name", "inflation/sdp/InflationSDP.py:_interpret_atomic_string", "inflation/sdp/InflationSDP.py:_interpret_operator_string", "inflation/InflationProblem.py:_lexrepr_to_symbols"]}
{"id": "C72", "title": "Products of the entries of InflationSDP.measurements are read as the products of the operators they stand for", "statement": "measurements[p][c][x][o] is the operator of party p acting on the c-th combination of copies of its sources, with setting x and outcome o: given in a generating set it is read as this operator. Different entries are different operators, every operator that occurs in generating sets is an entry, and lists of products of entries are read as the lists of the products of the operators, so that every generating set made from blocks or levels can be written in this form and gives the same relaxation.", "quantifier": "all problems with admissible party names (networks or not), all indices, all lists of products, all contents of the table of atom names", "why_tests_cant": "symbols carry only a name, which is looked up among three spellings of every operator; tests look at the entries of one problem", "anchors": ["inflation/sdp/InflationSDP.py:_generate_parties", "inflation/sdp/InflationSDP.py:build_columns", "inflation/sdp/InflationSDP.py:_interpret_atomic_string", "inflation/sdp/quantum_tools.py:generate_operators"]}
{"id": "C73", "title": "The lists of commutators and of positions that users look at are those of the operators", "statement": "commutation_relations(sdp) lists, for every two operators that do not commute in the inflated network, exactly one of the two commutators, names the operators correctly and lists nothing else; lexicographic_order(sdp) maps every operator to its position in the order of the program, and has no other keys.", "quantifier": "all problems with admissible party names, all pairs of operators", "why_tests_cant": "quantifies over all pairs of operators of all networks, and a missing or repeated pair or a wrong name is only seen against an independent characterisation of commutation", "anchors": ["inflation/sdp/quantum_tools.py:commutation_relations", "inflation/sdp/quantum_tools.py:lexicographic_order", "inflation/sdp/fast_npa.py:to_name"]}
{"id": "C74", "title": "write_to_file writes the format that the file name asks for", "statement": "For every file name with a supported format the problem is written in this format to this file; names with another format raise an exception; if no file format is specified, the default format (LP, SDPA) is written to the file with the default extension.", "quantifier": "all file names, with and without directories, dots and extensions", "why_tests_cant": "file names are unbounded strings and the mistakes are in rare shapes (dots in directories)", "anchors": ["inflation/lp/InflationLP.py:write_to_file", "inflation/sdp/InflationSDP.py:write_to_file"]}
{"id": "C75", "title": "A larger generating set never gives a weaker relaxation", "statement": "For the same problem and the same distribution, every assignment of the moments that satisfies the semidefinite program built from a generating set satisfies the program built from each smaller one, with the same value of the user's objective. So what a level of a hierarchy excludes or bounds, every higher level excludes or bounds at least as well: npaN, localN and physicalN are monotone, npaN is between local levels and localN above physicalN.", "quantifier": "all networks, distributions, pairs of generating sets one of which contains the other, objectives, margins of feas_as_optim, assignments of the moments", "why_tests_cant": "it relates two programs whose moments, orbit representatives, known values and bounds are computed independently; a mistake in one of them appears only as a slightly too weak or too strong bound", "anchors": ["inflation/sdp/InflationSDP.py:generate_relaxation", "inflation/sdp/InflationSDP.py:build_columns", "inflation/sdp/InflationSDP.py:set_distribution", "inflation/sdp/InflationSDP.py:set_objective", "inflation/sdp/InflationSDP.py:_prepare_solver_arguments", "inflation/sdp/InflationSDP.py:_to_canonical_memoized"]}
{"id": "C76", "title": "With shared_randomness=True what is not excluded is convex, and mixtures of what the graph can produce are never excluded", "statement": "set_distribution(P, shared_randomness=True) sets up a test for models whose sources may all be correlated by a global shared random variable: if assignments satisfy the programs of some distributions, their mixture satisfies the program of the mixture of the distributions (with the mixture of the margins); so no mixture of distributions generated by causal models of the graph is excluded. The option never makes the program stronger.", "quantifier": "all problems, generating sets, finite families of distributions and of causal models with arbitrary finite alphabets, all weights", "why_tests_cant": "convexity is a statement about all families of distributions and all solutions, and fails silently if one product of marginals is recorded as a value", "anchors": ["inflation/sdp/InflationSDP.py:set_distribution", "inflation/sdp/InflationSDP.py:set_values", "inflation/sdp/InflationSDP.py:update_values", "inflation/sdp/InflationSDP.py:_prepare_solver_arguments", "inflation/sdp/monomial_utils.py:compute_marginal"]}

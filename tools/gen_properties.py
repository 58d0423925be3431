import json
P=[]
def p(i,title,statement,quant,why,anchors):
    P.append(dict(id=i,title=title,statement=statement,quantifier=quant,why_tests_cant=why,anchors=anchors))
F="inflation/sdp/fast_npa.py"; Q="inflation/sdp/quantum_tools.py"; IP="inflation/InflationProblem.py"; U="inflation/utils.py"
LP="inflation/lp/InflationLP.py"; SDP="inflation/sdp/InflationSDP.py"; LPU="inflation/lp/lp_utils.py"; SU="inflation/sdp/sdp_utils.py"
LM="inflation/lp/monomial_classes.py"; NB="inflation/lp/numbafied.py"; MU="inflation/sdp/monomial_utils.py"; OU="inflation/optimization_utils.py"; LW="inflation/lp/writer_utils.py"
p("C01","Canonical form preserves the operator a monomial denotes",
 "Bringing a monomial to canonical form never changes the operator product it stands for: in every algebra in which the measurement operators are projectors that commute and are orthogonal exactly where the problem says so, the product of the canonical form equals the product of the input (with the reserved zero operator denoting 0).",
 "all monomials of any length, all commutation and orthogonality matrices, all algebras and all interpretations satisfying those relations",
 "quantifies over every monomial length and over every operator algebra; a test can only evaluate words on a few matrices",
 [F+":to_canonical_1d_internal",F+":nb_lexmon_to_canonical",F+":remove_projector_squares",F+":lexmon_is_zero"])
p("C02","Canonical form decides equality under commutations",
 "Two monomials that can be turned into one another by repeatedly exchanging neighbouring commuting operators receive the same commutation-canonical form, and two monomials with the same form can be turned into one another in that way.",
 "all pairs of monomials of any length and every symmetric commutation relation",
 "needs every pair of words in an infinite free monoid and every rewriting path between them",
 [F+":nb_lexmon_to_canonical",F+":to_canonical_1d_internal"])
p("C03","Full canonical form decides equality under commutation, idempotence and orthogonality",
 "For the operator list of an inflation problem, two monomials receive the same canonical form exactly when they are equal modulo the relations 'commuting operators swap', 'P*P = P' and 'P*Q = 0 for different outcomes of one measurement'.",
 "all pairs of monomials of any length over any operator list whose measurements are contiguous blocks with equal commutation rows",
 "confluence of a rewriting system over unbounded words; sampled words cannot exclude a missed identification",
 [F+":to_canonical_1d_internal",F+":lexmon_is_zero",F+":remove_projector_squares",IP+":_ortho_groups",SDP+":__init__"])
p("C04","Canonicalisation is idempotent and picks the lexicographically least word",
 "Canonicalising a canonical monomial changes nothing, and the commutation-canonical form is the lexicographically smallest of all words reachable by commuting swaps.",
 "all monomials and all commutation relations",
 "minimality ranges over all reachable words of unbounded length",
 [F+":nb_lexmon_to_canonical",F+":to_canonical_1d_internal"])
p("C05","The fast commuting path agrees with the general path",
 "When no two operators fail to commute, the commuting=True shortcut (plain sorting) returns exactly what the general canonicalisation returns.",
 "all monomials, all operator lists with trivial commutation matrix, both values of apply_only_commutations",
 "two different code paths must agree on every word",
 [F+":to_canonical_1d_internal",F+":nb_lexmon_to_canonical"])
p("C06","The commutation relation is symmetric, irreflexive and blind to outcomes",
 "The commutation matrix of a problem is symmetric with an all-commuting diagonal, never depends on the outcomes of the two operators, and two operators that do not share any copy of a quantum source are always declared commuting.",
 "all operator lists, all party-pair source tables that are symmetric in the parties",
 "holds for arbitrary DAGs, inflation levels and operators",
 [F+":nb_operators_commute",F+":commutation_matrix",IP+":sources_to_check_for_party_pair_commutation"])
p("C07","Every set of mutually compatible measurements is enumerated exactly once",
 "Enumerating all cliques of a compatibility graph returns the empty set followed by every clique exactly once (each as an increasing list); with a size cut-off it returns exactly the cliques up to that size.",
 "all graphs of any size, every cut-off",
 "exponentially many cliques over graphs of unbounded size",
 [U+":all_and_maximal_cliques",IP+":all_and_maximal_compatible_templates"])
p("C08","The maximal compatible sets reported are exactly the maximal cliques",
 "Without a size cut-off, the second list returned is exactly the set of inclusion-maximal cliques, each once. (With a cut-off the code can also report non-maximal cliques: a counterexample is proved.)",
 "all graphs with at least one vertex",
 "correctness depends on the BFS order of an unbounded queue",
 [U+":all_and_maximal_cliques"])
p("C09","Factorisation splits a moment into independent connected factors and loses nothing",
 "Factorising a monomial yields factors that together contain each operator occurrence exactly once in the original relative order; operators in different factors share no source copy, and each factor cannot be split further.",
 "all problems and all monomials of any length (up to the label capacity of C10)",
 "transitive closure over unbounded monomials",
 [IP+":factorize_monomial_1d",IP+":factorize_monomial_2d",F+":nb_classify_disconnected_components",F+":nb_overlap_matrix",F+":nb_exists_shared_source"])
p("C10","Component labels are faithful up to the capacity of their 8-bit type and not beyond",
 "The compiled component labelling gives two operators equal labels exactly when they are connected as long as there are at most 255 components; with more components, two unconnected operators can receive the same label.",
 "all overlap graphs; negation witnessed by an explicit family",
 "requires reasoning about graphs with hundreds of components and integer wrap-around",
 [F+":nb_classify_disconnected_components"])
p("C11","Skipping factorisation is only done when nothing can factorise",
 "If the problem declares that no moment ever factorises, then any two operators of the problem share a copy of some source, so returning the monomial unsplit is the correct factorisation.",
 "all DAG hypergraphs, all inflation levels, all pairs of operators",
 "all hypergraph shapes",
 [IP+":ever_factorizes",IP+":factorize_monomial_1d"])
p("C12","The operator list contains every measurement operator exactly once and lookups round-trip",
 "The internal operator list contains exactly one entry for every combination of party, allowed source copies, setting and outcome, and translating a monomial to indices and back is the identity.",
 "all scenarios (any number of parties, sources, levels, settings, outcomes) and all monomials over them",
 "the list is generated by nested loops over arbitrary cardinalities",
 [IP+":_lexorder",IP+":mon_to_lexrepr",IP+":inflation_indices_per_party",F+":nb_mon_to_lexrepr",F+":nb_lexorder_idx"])
p("C13","Effective settings encode private setting and parents' outcomes faithfully",
 "For every party the effective setting index is a bijection with tuples (private setting, outcomes of the observed parents): decoding is injective and onto, so no two do-conditionals are conflated and none is missing.",
 "all DAGs with visible-to-visible edges and all cardinalities",
 "mixed-radix arithmetic for arbitrary radices",
 [IP+":effective_to_parent_settings",IP+":settings_per_party"])
p("C14","Inflation symmetries are exactly the group of source-copy relabellings",
 "The discovered symmetries are permutations of the operator list; there is one for every combination of permutations of the copies of each source, the identity is included, and the set is closed under composition and inverse.",
 "all scenarios and inflation levels",
 "factorially many permutations for arbitrary levels",
 [IP+":discover_lexorder_symmetries",U+":perm_combiner",U+":format_permutations",F+":apply_source_perm"])
p("C15","Symmetries respect commutation, orthogonality and canonical equality",
 "Applying an inflation symmetry to two operators does not change whether they commute or are orthogonal; consequently symmetric images of equal monomials are equal.",
 "all scenarios, all symmetries, all monomials",
 "for all permutations and words",
 [F+":nb_operators_commute",F+":commutation_matrix",IP+":discover_lexorder_symmetries",F+":to_canonical_1d_internal"])
p("C16","LP moments are identified exactly when they are related by a symmetry",
 "In the LP, two monomials are given the same orbit representative exactly when some inflation symmetry maps one to the other, and the representative is the smallest index in the orbit.",
 "all finite monomial lists and all symmetry groups acting on them",
 "order-dependence of an in-place loop over all group elements",
 [LP+":_discover_inflation_orbits"])
p("C17","Which representative an LP atomic moment gets does not depend on earlier calls",
 "Creating atomic moments in any order gives each event the same representative (a fixed function of its symmetry orbit), and two events get the same atomic moment exactly when a symmetry maps one to the other.",
 "all call histories and all symmetry groups",
 "all call orders of a mutable cache",
 [LP+":_AtomicMonomial"])
p("C18","The moment matrix is symmetric and equates entries exactly when the moments are equal",
 "The generated moment matrix is symmetric; an entry is 0 exactly when the corresponding product vanishes; two non-zero entries carry the same index exactly when the canonical products are equal up to reversal (adjoint).",
 "all lists of generating monomials and all commutation/orthogonality data",
 "all pairs of matrix positions of a matrix of unbounded size filled with a mutable index table",
 [Q+":calculate_momentmatrix_1d_internal",Q+":calculate_momentmatrix"])
p("C19","SDP variables are merged exactly along symmetry orbits",
 "After applying the inflation symmetries, two moment-matrix entries carry the same variable exactly when some symmetry maps one onto the other, and the representative chosen is the smallest original index of the orbit.",
 "all moment matrices and symmetry groups acting compatibly on them",
 "order-dependent in-place merging over all symmetries",
 [Q+":apply_inflation_symmetries",SDP+":_discover_columns_symmetries"])
p("C20","A moment is 'knowable' exactly when it is an event of the original network",
 "An atomic moment is flagged knowable exactly when relabelling source copies turns it into one in which each party appears at most once and every source is on its first copy.",
 "all monomials with at least one operator",
 "all relabellings of all monomials",
 [F+":nb_is_knowable"])
p("C21","Moments flagged as physical are non-negative in every quantum model",
 "If a monomial is flagged physical then its expectation value is non-negative in every algebra of projectors where operators commute according to the problem and in every state (sandwiching reduction included).",
 "all monomials, all commutation tables, all representations and positive states",
 "positivity in every Hilbert-space model",
 [F+":nb_is_physical",F+":nb_indices_of_more_than_one_op_per_party_per_factor"])
p("C22","Marginals computed from a distribution are the true marginals",
 "The value computed for a knowable atomic moment is the sum of the given distribution over the outcomes of the absent parties with the present parties' outcomes and settings fixed.",
 "all distributions, all numbers of parties, all atoms listing parties in increasing order (a counterexample is proved for other orders)",
 "arbitrary-rank tensors",
 [MU+":compute_marginal",LM+":InternalAtomicMonomial.compute_marginal"])
p("C23","For no-signalling distributions the marginal does not depend on absent parties' settings and normalises",
 "If the distribution is no-signalling, the marginal assigned to a moment is the same for every choice of the absent parties' settings; summing a marginal over one party's outcome gives the marginal without that party; the empty moment has value 1 for a normalised distribution.",
 "all no-signalling distributions of any number of parties",
 "real-valued universally quantified identity",
 [MU+":compute_marginal"])
p("C24","A product moment does not depend on the order of its factors",
 "Building a compound moment from any reordering of the same factors gives an equal moment with the same name and the same knowability classification, which is always one of Knowable / Semi / Unknowable according to whether none, some or all factors are unknowable.",
 "all factor lists and permutations",
 "all permutations of unbounded factor lists",
 [LM+":CompoundMoment.__init__",LM+":CompoundMoment.knowability_status"])
p("C25","Evaluating a moment against known values is sound",
 "Evaluating a compound moment returns (value, unknown remainder, status) such that in every assignment of real values to moments that is multiplicative over factors and agrees with the known values, moment = value × remainder; 'Known' implies no remainder except when the numeric product is (numerically) zero.",
 "all moments, all dictionaries of known values, all multiplicative assignments",
 "all real-valued assignments",
 [LM+":CompoundMoment.evaluate",LM+":CompoundMoment.attempt_division_by"])
p("C26","Setting a distribution leaves no trace of earlier ones",
 "After setting values, the known moments, semi-known moments and extra constraints are a function of the last call only, whatever was set before. (False for support problems, where lower bounds accumulate: negation proved.)",
 "all histories of API calls",
 "unbounded call histories",
 [LP+":set_values",LP+":_reset_values",LP+":set_distribution",SDP+":set_values"])
p("C27","A moment is never both known and semi-known, and the unit moment is always known to be 1",
 "After any sequence of value-setting calls, the sets of known and semi-known moments are disjoint and the unit moment is known with value one.",
 "all call histories and value dictionaries not overwriting the unit",
 "invariant over unbounded histories",
 [LP+":update_values",LP+":set_values",LP+":_cleanup_after_set_values"])
p("C28","Every LP constraint generated holds for every genuine distribution",
 "Each generated normalisation equality and each positivity inequality (inclusion-exclusion over last outcomes) is satisfied by every non-negative no-signalling assignment; each inequality evaluates exactly to the probability of one joint outcome of a maximal compatible set.",
 "all problems and all assignments of probabilities to events that arise by marginalisation",
 "all distributions and exponentially many events",
 [LP+":_discover_normalization_eqns",LP+":_discover_inequalities",LP+":_raw_monomials_as_lexboolvecs"])
p("C29","LP solver encodings describe the stated feasible set",
 "The sparse constraint rows, known-value rows and bound rows passed to the solver are satisfied by an assignment exactly when it satisfies the user's equalities, inequalities, known values and bounds.",
 "all constraint systems and all real assignments",
 "equality of two polyhedra",
 [LPU+":solveLP_sparse",LPU+":convert_dicts",LPU+":to_sparse",U+":expand_sparse_vec",U+":vstack"])
p("C30","Relaxed feasibility problems answer the original question",
 "When feasibility is checked as an optimisation of a slack, the optimal slack is non-negative (respectively zero) exactly when the original constraints are satisfiable.",
 "all linear systems",
 "all real-valued systems",
 [LPU+":solveLP_sparse"])
p("C31","Infeasibility certificates are valid",
 "A certificate returned from a dual solution is non-negative on every value assignment compatible with the causal scenario; hence a negative value proves incompatibility. (False when nontrivial bounds are present: the certificate omits their contribution; a counterexample is proved.)",
 "all linear programs, all dual-feasible solutions, all feasible right-hand sides",
 "weak duality for all programs",
 [LPU+":solveLP_sparse",LP+":certificate_as_dict"])
p("C32","Eliminating semi-known moments does not change the SDP's feasible set",
 "Replacing each semi-known moment by its factor times the other moment yields a problem with the same solutions for the remaining moments, provided the other moment is itself neither semi-known nor known (counterexamples proved otherwise).",
 "all moment matrices as affine functions, all semi-known dictionaries",
 "all affine matrix pencils",
 [SU+":solveSDP_MosekFUSION"])
p("C33","User-supplied extra constraints reach the solver",
 "Every extra equality or inequality set by the user is present in the arguments given to the solver. (True for the LP; false for the SDP: negation proved.)",
 "all problems and extra constraints",
 "all constraint lists; effect is an omission invisible unless the constraint is active",
 [LP+":_prepare_solver_arguments",SDP+":_prepare_solver_arguments",SDP+":set_extra_equalities"])
p("C34","Memoised canonicalisation returns what direct canonicalisation would",
 "Whatever was canonicalised before, the memoised canonical form equals the unmemoised one. (False because the cache key ignores apply_only_commutations: negation proved; true for histories using one flag value.)",
 "all histories of calls",
 "all call orders on a mutable cache",
 [SDP+":_to_canonical_memoized_1d"])
p("C35","Merging extra constraints and reading them back is stable",
 "Reading the list of all equalities (inequalities) always reflects the currently set extra constraints. (False: the by-name views are cached and go stale, and preparing unbounded solver arguments appends bounds to the cached list: negation proved.)",
 "all call histories",
 "all interleavings of setters and readers",
 [LP+":moment_equalities_by_name",LP+":moment_inequalities_by_name",LP+":_prepare_solver_arguments"])
p("C36","Cleaning a certificate rescales it by a positive factor up to the documented rounding",
 "Cleaning a certificate's coefficients divides all of them by one positive number, zeroes those whose quotient is within the tolerance and moves every other coefficient by at most half a unit of the last kept decimal; signs never flip, and no coefficient above the tolerance is lost. (The documented statement that coefficients below the tolerance become zero is false, as the comparison is made after rescaling; and the rounding can turn a valid certificate into an invalid one. Both proved.)",
 "all coefficient dictionaries, tolerances and numbers of decimals",
 "all real coefficient vectors",
 [U+":clean_coefficients"])
p("C37","Bisection for the critical parameter brackets the true critical value",
 "The value returned by the bisection mode always has, within the tolerance, a parameter whose objective is above and one whose objective is below the target level; it is never below a feasible range by more than the tolerance, it is within the tolerance of the place where a monotone objective crosses the level, the search converges, and the certificate returned is that of the value. (The level is -precision/2048, so the true critical parameter may be missed by more than the precision, and the assertions on the end points do not guarantee that the search starts; both proved.)",
 "all monotone oracles, all brackets and precisions",
 "all monotone functions",
 [OU+":max_within_feasible",OU+":_maximize_via_bisect"])
p("C38","Certificate-driven maximisation never discards feasible parameters",
 "In dual mode no feasible parameter exceeds any of the computed bounds or the returned value, if the certificates are sound and the inner optimisation finds the global maximum, or a local one and feasibility is monotone; the bounds decrease by more than the precision until the last one; the loop terminates. (A local method discards feasible parameters otherwise; the call raises if the whole interval is feasible; the returned value can be weaker than a bound already found. All proved.)",
 "all certificates valid in the sense of C31 and all parameters",
 "all certificate sequences",
 [OU+":_maximize_via_dual",OU+":max_within_feasible"])
p("C39","An exported LP or MPS file says the same as the problem",
 "Reading back a file written with write_to_file in LP or MPS format gives the problem: one row per constraint with the same meaning once known values are substituted, the same objective including its constant, and every bound as a statement of its own. (False in parts: bounds share one line in LP files, constraints among known values are dropped even if violated, a constant objective is dropped in LP files, MPS numbers are rounded to four decimals, unbounded variables become non-negative: each negation is proved.)",
 "all problems (equalities, inequalities, known and semi-known variables, bounds, objectives), all number formats that can be read back, all set iteration orders",
 "needs all problems and all bounds; tests only compare a few files",
 [LW+":write_to_lp",LW+":write_to_mps",LW+":process_arguments",LW+":format_constraint_lp"])
p("C40","Names identify operators and moments",
 "Within a problem two different operators have different display names, so reading a name back yields the operator it was printed from; moments with the same name consist of the same measurements (party, setting, outcome, do-values), products with the same name have the same factors with the same powers, and the name of a moment is accepted wherever a moment is expected.",
 "all problems whose party names avoid the separator characters, all moments and products of moments, every iteration order of Python sets",
 "string injectivity for arbitrary cardinalities and numbers of operators",
 [IP+":_interpretation_to_name",IP+":_lexrepr_to_names",F+":to_name"])
p("C41","Normalisation equalities added by the SDP hold in every model",
 "Every normalisation equality produced (sum over outcomes of one operator in a moment = moment without it, last outcome expressed via the others) holds for all moments of every quantum model with complete measurements.",
 "all monomials and all models",
 "all representations",
 [Q+":construct_normalization_eqs",Q+":expand_moment_normalisation"])
p("C42","Generating sets contain no duplicates and no zero operators",
 "The columns built from a hierarchy specification are pairwise distinct canonical monomials, contain no vanishing operator, start with the unit, and contain every canonical non-zero product of the specified shape.",
 "all specifications and problems",
 "all specifications",
 [SDP+":_build_cols_from_specs",SDP+":build_columns"])
p("C43","Objective rewriting preserves the objective value",
 "Substituting known values and semi-known relations into the objective leaves its value unchanged on every feasible assignment, and minimising is maximising the negated objective with the sign restored in the reported value.",
 "all objectives, value dictionaries, assignments",
 "all assignments",
 [LP+":set_objective",LP+":_update_objective",SDP+":_update_objective"])
p("C44","Solving again after any change cannot report a stale result",
 "Every call that changes the problem discards the stored status and solution.",
 "all call histories",
 "all interleavings",
 [LP+":_reset_solution",LP+":reset",SDP+":_reset_solution"])
p("C45","The DAG is translated faithfully into the tables that drive commutation and factorisation",
 "For every source and pair of parties, the table consulted by the commutation test says that the source links the parties exactly when both measure it directly (same party) or through a common intermediate latent, and that it links them quantumly exactly when in addition the source (and the latent) are nonclassical; the hypergraph marks exactly the parties a source reaches.",
 "all DAGs, latents, classical/nonclassical source declarations, party pairs",
 "depends on arbitrary DAG shapes and iteration orders of sets",
 [IP+":__init__ (hypergraph)",IP+":sources_to_check_for_party_pair_commutation"])
p("C46","Lower bounds of zero are only put on moments that are non-negative in every quantum model",
 "Every moment to which the SDP assigns the default lower bound 0 has a non-negative value in every symmetric state of every quantum model of the inflated network. (False: moments equal to their adjoint only up to an inflation symmetry are also bounded; a genuine i.i.d. quantum model with value -3/16 is proved. True for moments equal to their adjoint by commutations.)",
 "all problems, monomials and quantum models",
 "quantifies over all operator algebras and states",
 [SDP+":generate_relaxation (hermitian_moments, moment_lowerbounds)","inflation/sdp/monomial_classes.py:is_hermitian"])
p("C47","SDP moments are identified exactly along symmetry orbits whatever was computed before",
 "The representative of a reduced monomial is the first word, in dictionary order, reachable from it by inflation symmetries and commutations, whatever was computed before; two reduced monomials get the same representative exactly when one is reachable from the other. (False for monomials containing squares, whose representatives corrupt later ones: negation proved.)",
 "all problems, monomials and call histories",
 "history-dependent memoisation",
 [SDP+":_to_inflation_repr_1d",SDP+":_inflation_orbit_and_rep_1d",SDP+":_to_canonical_memoized_1d"])
p("C48","True values stay true over every history",
 "If every value the user passes to set_values/update_values is the true value of its moment in some assignment of moments that factorises over atoms, then after any history of calls every recorded known value and every recorded semi-known relation is true of that assignment, so no feasible point is ever cut off by the bookkeeping. (If update_values later replaces a value by another, old semi-known relations survive; proved separately as C48_stale_semiknown.)",
 "all call histories, all moment assignments",
 "history-dependent",
 [LP+":update_values",LP+":set_values","inflation/lp/monomial_classes.py:evaluate"])
p("C49","The reported moment matrix is that of the reported moments",
  "After solving an SDP, the matrix reported in the solution is the moment matrix of a solution with the reported values of the moments. (False for the default dual formulation: only the constant part is reported; proved.)",
  "all SDP problems and all points returned by the solver",
  "Tests compare objective values and statuses; the matrix is only checked on a few problems.",
  ["inflation/sdp/sdp_utils.py:solveSDP_MosekFUSION"])
p("C50","The reported certificate is the solver's certificate",
  "The dictionary, the value and the text reported for a certificate agree with the certificate found by the solver: exactly without cleaning, and up to a positive factor and 1/2000 per term with the default cleaning. (False when bounds are set on an SDP: the entries for the moment 1 and for the constant term collide and one of them is lost, so compatible points are reported incompatible; the SDP class also fails to print an empty certificate. Both proved.)",
  "all certificates, all values of the moments",
  "Tests look at a few certificates of problems without bounds.",
  [SDP+":certificate_as_dict",SDP+":evaluate_certificate",SDP+":string_from_dict",LP+":certificate_as_dict",LP+":evaluate_certificate",LP+":string_from_dict"])
p("C51","An exported file says the same as the semidefinite problem",
 "Reading back a file written with write_to_file in SDPA format gives a program with the same solutions: every solution of the file comes from moment values that satisfy the problem (known values, proportionality, positivity, bounds, equalities, inequalities) with the same objective value up to the stated constant, and the other way round; every entry lies inside a declared block; and the export succeeds exactly when everything mentioned in the objective, bounds and constraints is a moment of the matrix. (False in parts, each negation proved: the sign of negative known values is lost, negative upper bounds are unreadable, a second inequality is written outside its block, the direction of optimisation is reversed, bounds on semi-known moments are dropped.)",
 "all problems of every size (moment matrices, known and semi-known moments, objectives, bounds, equalities, inequalities), all number formats that can be read back",
 "needs all problems and all feasible points; tests only look at a few files",
 ["inflation/sdp/writer_utils.py:write_to_sdpa","inflation/sdp/writer_utils.py:write_to_mat","inflation/sdp/writer_utils.py:convert_to_human_readable",SDP+":write_to_file"])
p("C52","A distribution compatible with the classical network is never reported incompatible",
 "If a distribution is generated by a classical model of the causal structure (independent sources, each party responding to its setting, its parents' outcomes and its sources), then for every inflation set_distribution accepts it, and the linear program handed to the solver, with or without linearised constraints, after any history of truthful calls, is solved by the probabilities that the model gives to the events of the inflated network; the dual and relaxed formulations are bounded accordingly, and bounds on an objective hold for the model.",
 "all causal structures (with parent outcomes and private settings), inflation levels, finite models with probabilities in any ordered field, histories of truthful calls, solver formulations",
 "quantifies over all causal models and all inflations; tests only solve a few programs on a few distributions",
 [LP+":InflationLP",LP+":set_distribution",LP+":solve",LP+":_prepare_solver_arguments","inflation/InflationProblem.py:InflationProblem","inflation/lp/lp_utils.py:solveLP_sparse"])
p("C53","A certificate of incompatibility is a valid causal inequality",
 "After set_distribution without linearised constraints and solve, without bounds or objective, the certificate built from the multipliers the solver returns is non-negative at the moments of every classical model of the causal structure, whatever the distribution was and in every formulation; the reported dictionary (which drops entries up to 1e-8) is at least minus 1e-8 times the number of moments.",
 "all causal structures, inflations, distributions, solver formulations, multipliers feasible for the solver's problem, and classical models",
 "quantifies over all models and all certificates",
 [LP+":set_distribution",LP+":solve",LP+":certificate_as_dict","inflation/lp/lp_utils.py:solveLP_sparse"])
p("C54","The SDP never excludes a distribution of a classical causal model",
 "If a distribution is generated by a classical model of the causal structure drawn by the user (independent sources, intermediate latents, outcomes that depend on parents' outcomes), then for every inflation and every generating set of monomials containing the unit set_distribution accepts it, no exception is raised, and the semidefinite program handed to the solver has a feasible point; the dual problem and the feasibility-as-optimisation problem never have a negative value. After any history of truthful calls the objective bound holds for the model.",
 "all causal structures, inflation levels, generating sets, finite classical models, histories of truthful calls and of memoised computations, solver flags",
 "quantifies over all causal models and all inflations; tests only solve a few programs on a few distributions",
 [SDP+":InflationSDP",SDP+":generate_relaxation",SDP+":set_distribution",SDP+":_prepare_solver_arguments",SDP+":solve","inflation/sdp/sdp_utils.py:solveSDP_MosekFUSION"])
p("C55","A certificate obtained from the SDP is a valid causal inequality for classical models",
 "After set_distribution without linearised constraints and solve, the reported certificate evaluated on the values that set_distribution records for any distribution of a classical causal model is at least minus the clean-up tolerance times the number of known moments; so a distribution whose certificate is more negative has no classical causal model.",
 "all causal structures, inflations, generating sets, distributions, multipliers feasible for the solver's dual problem, and classical models",
 "quantifies over all models and all certificates",
 [SDP+":set_distribution",SDP+":solve",SDP+":certificate_as_dict","inflation/sdp/sdp_utils.py:solveSDP_MosekFUSION"])
p("C56","The SDP never excludes a distribution of a quantum model of the inflated network",
 "For every state and family of projective measurements on the inflated network (operators commute and are orthogonal where the causal structure says so, the state is symmetric under exchange of copies and factorises over disjoint sets of copies), set_distribution of the corresponding distribution raises nothing and the semidefinite program has the model's moments as a feasible point.",
 "all causal structures, inflation levels, generating sets, quantum models of any dimension, histories of truthful calls",
 "quantifies over all operator algebras and states",
 [SDP+":InflationSDP",SDP+":generate_relaxation",SDP+":set_distribution",SDP+":solve"])
p("C57","A certificate obtained from the SDP is a valid inequality for quantum models of the inflated network",
 "After set_distribution without linearised constraints and solve, the certificate built from the solver's multipliers is non-negative at the moments of every quantum model of the inflated network.",
 "all causal structures, inflations, generating sets, distributions, feasible multipliers, quantum models",
 "quantifies over all operator algebras and states",
 [SDP+":set_distribution",SDP+":solve",SDP+":certificate_as_dict"])
p("C58","The linear program of a nonfanout inflation never excludes what a physical theory can do",
 "When no source is declared classical, the variables of the linear program are probabilities of outcomes of measurements that can be performed together. For every assignment of probabilities to such joint events that is non-negative, non-signalling, invariant under exchange of copies and factorising over disjoint sets of copies (classical, quantum or any generalised probabilistic theory), set_distribution of the distribution it gives to the original network is accepted, and after any history of truthful calls the program handed to the solver is feasible, its dual is bounded and its relaxed form is not negative. In particular this holds for all quantum networks: a density matrix for every source, a projective measurement for every party, setting and outcome of its parents.",
 "all causal structures, inflation levels, classical/nonclassical assignments of sources and latents, theories, quantum networks of any dimension, histories of truthful calls",
 "quantifies over all theories, all dimensions and all networks; an unsound row of the program would only show for some of them",
 [LP+":InflationLP",LP+":_generate_lp",LP+":set_distribution",LP+":solve",IP+":InflationProblem"])
p("C59","A certificate of the nonfanout linear program is a valid inequality in every physical theory",
 "Set any distribution without linearised constraints, solve in any form, and evaluate the certificate on the probabilities that a theory gives to the inflated network: it is not negative, and the reported dictionary (small entries dropped) not below -1e-8 times the number of moments. So a negative certificate excludes classical, quantum and more general explanations.",
 "all causal structures, inflations, distributions, feasible multipliers, theories, quantum networks",
 "quantifies over all theories and all solver outputs",
 [LP+":set_distribution",LP+":solve",LP+":certificate_as_dict",LPU+":solveLP_MOSEK"])
p("C60","Every accepted way of writing a moment denotes that moment",
 "Values, bounds, objectives and constraints of the LP are given as dictionaries from moments to numbers. The name and the SymPy symbol of a moment of the table denote that moment at every later time, and different moments have different names; a list of operators, given by numbers, rows or names between angle brackets, denotes the moment whose value in every model is the probability that all the operators happen; lists that are equal as sets up to an exchange of copies of sources denote the same moment, whatever was read in between; a product of names or symbols denotes the product.",
 "all problems and party names, all states of the table reachable by creating the columns and then reading any moments in any form and combining atoms, all lists of operators, all classical models",
 "the table of moments and the cache of atoms grow with every reading, so the meaning of a name could depend on the history; which problems have names that collide or numbers that overflow cannot be found by sampling",
 [LP+":_sanitise_monomial",LP+":_interpret_name",LP+":_interpret_atomic_string",LP+":_monomial_from_atoms",LP+":Monomial",MU+":symbol_from_atom_name",IP+":_np_dtype"])
p("C61","Building, filling and solving the LP never fails",
 "For every problem that InflationProblem accepts with at most 254 copies of sources in total: the constructor of InflationLP succeeds (its assertions that the first moment is the unit and that the moments of the columns are pairwise different hold); dropping factors of a moment of the program leaves a moment of the program; set_distribution accepts every array of the right shape, compatible or not, and sets moments of the program only; after any sequence of calls that mention only moments of the program and contain no constraint without coefficients, solve reaches the solver with a well-defined task for all options. Together with soundness: the distribution of a causal model (classical, quantum or of a more general theory) goes through the whole pipeline and the program is feasible. A constraint without coefficients above 1e-8, in particular {}, makes every later solve raise.",
 "all accepted problems with at most 254 copies of sources, all arrays, all finite sequences of public calls mentioning only moments of the program, all solver options, all causal models",
 "whether two columns of the program get the same moment depends on the whole orbit structure of the inflation, and whether every key used later exists depends on all earlier calls; the sizes at which programs become interesting are out of reach of tests",
 [LP+":_generate_lp",LP+":monomials",LP+":set_distribution",LP+":_prepare_solver_matrices",LP+":solve",LPU+":drop_zero_rows",LPU+":solveLP_sparse"])
p("C62","Named views and exports describe the problem that is solved",
 "moment_equalities and moment_inequalities have one dictionary per row of the matrices given to the solver, with different moments of the program as keys and the same value at every assignment. After any public calls, if the stored by-name lists are up to date (no stored list read before the extra constraints were last changed), the dictionary handed to the writers by write_to_file can be prepared, declares every variable it uses, the i-th being the i-th moment, has each key once in each dictionary, has the recorded objective, and a point satisfies it exactly when it satisfies the recorded values, proportionalities, generated and extra constraints and bounds; read back, the rows of the LP file hold of the values of the moments exactly when these satisfy every constraint involving some moment without recorded value. Absorbing the bounds into the inequalities keeps the solutions with unit 1 for the matrices, and by name unless the unit is bounded (then it is false).",
 "all accepted problems with at most 254 copies of sources and ordinary party names, all sequences of public calls, all assignments of values to moments",
 "whether two moments share a name, whether a row has a column twice and whether a cached list is stale depends on the whole program and on the history of calls",
 [LP+":moment_equalities",LP+":moment_inequalities",LP+":moment_equalities_by_name",LP+":semiknown_by_name",LP+":_prepare_solver_arguments",LP+":_prepare_solver_matrices",LP+":write_to_file",LW+":write_to_lp",U+":expand_sparse_vec"])
p("C63","Factorization conditions exist, are complete and hold in every model",
 "After any readings of moments, factorization_conditions and quadratic_factorization_conditions, also by name and by column number, can be computed: they have exactly one entry for each moment of the program that is a product of two or more factors; the entry lists moments of the program with one factor each (or the first factor and the product of the others) that multiply to it; the values of the columns in any classical model, quantum network or more general theory of the causal structure satisfy them all.",
 "all accepted problems with at most 254 copies of sources and ordinary party names, all reachable states of the table of moments, all classical models, quantum networks and theories",
 "every lookup of a factor could raise KeyError, which depends on whether the columns are closed under taking factors; soundness quantifies over all models",
 [LP+":factorization_conditions",LP+":quadratic_factorization_conditions",LP+":factorization_conditions_by_name",LP+":sparse_factorization_conditions",LP+":quadratic_factorization_conditions_by_name",LP+":sparse_quadratic_factorization_conditions",U+":partsextractor"])
p("C64","max_within_feasible never misses a model and what it returns is certified",
 "max_within_feasible on a linear program without bounds and objective: with bisection, if it returns x then some parameter at x, or above it by less than the tolerance, is excluded: no classical model (or, for nonfanout inflations, no quantum network and no more general theory) has the prescribed moments there; so if all parameters up to v have a model, x is not below v by the tolerance. With certificates, no parameter with a model exceeds the returned value or any intermediate bound. The result does not depend on values or extra constraints set before the search.",
 "all accepted problems, all symbolic values, all search options, all histories of calls without bounds and objective, all solvers whose objective values are right up to less than precision/2048 (whose certificates come from multipliers of the task), all models",
 "it composes a search, a mutable program and a solver, and compares the result with infinitely many models",
 [OU+":max_within_feasible",OU+":_maximize_via_bisect",OU+":_maximize_via_dual",U+":make_numerical",LP+":solve"])
p("C65","The optimum reported by solve bounds the objective the user wrote, in every model",
 "After set_objective (maximise or minimise) and any other calls that leave the objective alone and say only true things, the objective value reported by solve is an upper bound (a lower bound) on the combination of moments the user wrote, in every classical model, every quantum network and, for nonfanout linear programs, every more general theory. For a functional of the observed distribution it bounds the value at every distribution that a model generates; for products of operators it bounds the combination of the probabilities that the written events happen.",
 "all accepted problems, all objectives, both directions, all histories, primal and dual form, all solvers whose objective value is right up to delta, all models of any dimension",
 "it compares one reported number with the value of an arbitrary expression in infinitely many models, through a sign convention, the reading of the objective and the solver interface",
 [LP+":set_objective",LP+":solve",SDP+":set_objective",SDP+":solve",SDP+":_sanitise_dict",SDP+":_sanitise_moment",LPU+":solveLP",SU+":solveSDP_MosekFUSION"])
p("C66","max_within_feasible on a semidefinite program never misses a parameter that a model explains",
 "If the bisection on an InflationSDP returns x, then at x or above it by less than the tolerance there is a parameter whose values no model of the causal structure explains (classical models, quantum networks, models of the inflated network); so if every parameter up to v has a model, x is not below v by more than the tolerance. If the search with certificates returns x and the inner optimisation is exact, every parameter of the interval that a model explains is at most x and at most every intermediate bound. The program may have been used before in any way that raised no exception and set no objective.",
 "all accepted problems, all relaxations, all symbolic values in one symbol, all options, all histories before the search, all solvers whose objective value or certificate is right, all models of any dimension",
 "it compares the outcome of an adaptive search over a stateful program with all models at all parameters; tests try a few families with one solver",
 [OU+":max_within_feasible",OU+":_maximize_via_bisect",OU+":_maximize_via_dual",SDP+":set_values",SDP+":solve",SDP+":certificate_as_dict"])
p("C67","The name of a moment of a semidefinite program denotes that moment",
 "In an InflationSDP whose party names contain none of the separators and brackets used in names, the name of every moment made so far is read back as this moment by everything that accepts names (set_values, set_objective, set_bounds, certificates), now and after any further moments have been made; two different moments never have the same name, whatever the order in which they or their adjoints were made; and no name is '1', '0' or 'constant_term' except for the moments meant. So a certificate keyed by names determines the certificate keyed by moments.",
 "all accepted problems, all admissible party names, all relaxations, all sequences of reading and combining moments (including the memoised canonical forms and adjoints)",
 "the names come from a stateful table which is overwritten on collision; a collision could appear for any scenario and any order of calls, tests only look up a few names in a fresh program",
 [SDP+":_monomial_from_atoms",SDP+":_interpret_name",SDP+":_sanitise_moment",LM+":CompoundMoment",LM+":InternalAtomicMonomial","inflation/sdp/monomial_classes.py:InternalAtomicMonomialSDP","inflation/sdp/monomial_utils.py:name_from_atom_names"])
p("C68","Generating a relaxation succeeds",
 "generate_relaxation returns for every problem and every NPA level, local level or list of products of parties: the moments and the indices of the moment matrix are in bijection (the assertion that no two indices are the same monomial never fails), every index of a normalisation equality is known, and no exception is raised, whatever moments were computed before. With set_distribution, a distribution that the network can produce classically is then never excluded, with no assumption on the program that was built.",
 "all accepted problems (at most 254 copies of sources in total), all NPA and local levels and lists of products of parties, all generating sets preserved by relabelling copies, all states of the memoised representatives",
 "the assertion compares representatives (least elements of orbits of moments, computed by memoised functions after factorisation) with indices (orbits of cells under the permutations of columns); they could disagree for any scenario, level and memo state; tests generate a handful of relaxations",
 [SDP+":generate_relaxation",SDP+":build_columns",SDP+":_build_cols_from_specs",SDP+":_discover_normalization_eqns",SDP+":Moment_1d",SDP+":momentmatrix_and_inverse"])
p("C69","Named generating sets are what their names say",
 "With column_specification='physicalN' (or one digit per party) the columns are exactly the products of outcomes of pairwise compatible measurements, no measurement twice, within max_monomial_length and the levels of the parties: no such product is missing, none is there twice under another spelling, the unit is there, shorter products come first. The set is preserved by relabelling copies, so generate_relaxation returns for it as for every other string that is understood, and a distribution which the network produces classically is never excluded. 'npaN' is read as level N, 'local012' as one level per party, 'local1' as one level for all.",
 "all accepted problems, all levels, all values of max_monomial_length, all strings that are read; for the relaxation: at most 254 copies of sources and parties with children having two outcomes",
 "the columns are assembled from sorted templates, cliques of compatible measurements and unpacked boolean vectors, in a number of ways that grows exponentially; tests compare a few small sets; a missing product silently weakens the relaxation",
 [SDP+":build_columns",SDP+":generate_relaxation",SDP+":_build_cols_from_specs"])
p("C70","Linearised polynomial constraints never exclude a distribution which the network produces",
 "generate a relaxation and call set_distribution(P, use_lpi_constraints=True) for a P which the network produces classically: no exception is raised, every linearised constraint handed to the solver says that a moment is a number times a moment that is itself left free (not known, not eliminated), the problem handed to the solver is feasible, and no dual point is negative. Separation holds after any earlier use of the program with values for atoms.",
 "all accepted problems, models, generating sets with the unit, all distributions that give no product of factors of a moment a value strictly between 0 and 1e-8; for separation all histories of calls without update_values",
 "whether a linearised constraint is sound depends on which factors of all moments are known, on adjoints of atoms and on the order in which solver variables are eliminated; tests check a few numbers",
 [SDP+":set_distribution",SDP+":update_values",SU+":solveSDP_MosekFUSION"])
p("C71","Generating sets returned as expressions or written as arrays are read back as the same generating sets",
 "build_columns(spec, symbolic=True) returns SymPy expressions; giving that list back to build_columns or generate_relaxation gives the same columns in the same order, and different columns have different expressions. The same holds for the columns written as two-dimensional or one-dimensional arrays, and lists of party blocks give the products of the operators of the parties.",
 "all problems with admissible party names, all lists of words of operators (not only those that build_columns makes), all contents of the table of atom names",
 "the expressions pass through symbols, operator names, a dictionary of all spellings and SymPy's combination of factors; a test tries a few columns of one network",
 [SDP+":build_columns",SDP+":_interpret_name",SDP+":_interpret_atomic_string",SDP+":_interpret_operator_string",IP+":_lexrepr_to_symbols"])
p("C72","Products of the entries of InflationSDP.measurements are read as the products of the operators they stand for",
 "measurements[p][c][x][o] is the operator of party p acting on the c-th combination of copies of its sources, with setting x and outcome o: given in a generating set it is read as this operator. Different entries are different operators, every operator that occurs in generating sets is an entry, and lists of products of entries are read as the lists of the products of the operators, so that every generating set made from blocks or levels can be written in this form and gives the same relaxation.",
 "all problems with admissible party names (networks or not), all indices, all lists of products, all contents of the table of atom names",
 "symbols carry only a name, which is looked up among three spellings of every operator; tests look at the entries of one problem",
 [SDP+":_generate_parties",SDP+":build_columns",SDP+":_interpret_atomic_string","inflation/sdp/quantum_tools.py:generate_operators"])
p("C73","The lists of commutators and of positions that users look at are those of the operators",
 "commutation_relations(sdp) lists, for every two operators that do not commute in the inflated network, exactly one of the two commutators, names the operators correctly and lists nothing else; lexicographic_order(sdp) maps every operator to its position in the order of the program, and has no other keys.",
 "all problems with admissible party names, all pairs of operators",
 "quantifies over all pairs of operators of all networks, and a missing or repeated pair or a wrong name is only seen against an independent characterisation of commutation",
 ["inflation/sdp/quantum_tools.py:commutation_relations","inflation/sdp/quantum_tools.py:lexicographic_order","inflation/sdp/fast_npa.py:to_name"])
p("C74","write_to_file writes the format that the file name asks for",
 "For every file name with a supported format the problem is written in this format to this file; names with another format raise an exception; if no file format is specified, the default format (LP, SDPA) is written to the file with the default extension.",
 "all file names, with and without directories, dots and extensions",
 "file names are unbounded strings and the mistakes are in rare shapes (dots in directories)",
 [LP+":write_to_file",SDP+":write_to_file"])
p("C75","A larger generating set never gives a weaker relaxation",
 "For the same problem and the same distribution, every assignment of the moments that satisfies the semidefinite program built from a generating set satisfies the program built from each smaller one, with the same value of the user's objective. So what a level of a hierarchy excludes or bounds, every higher level excludes or bounds at least as well: npaN, localN and physicalN are monotone, npaN is between local levels and localN above physicalN.",
 "all networks, distributions, pairs of generating sets one of which contains the other, objectives, margins of feas_as_optim, assignments of the moments",
 "it relates two programs whose moments, orbit representatives, known values and bounds are computed independently; a mistake in one of them appears only as a slightly too weak or too strong bound",
 [SDP+":generate_relaxation",SDP+":build_columns",SDP+":set_distribution",SDP+":set_objective",SDP+":_prepare_solver_arguments",SDP+":_to_canonical_memoized"])
p("C76","With shared_randomness=True what is not excluded is convex, and mixtures of what the graph can produce are never excluded",
 "set_distribution(P, shared_randomness=True) sets up a test for models whose sources may all be correlated by a global shared random variable: if assignments satisfy the programs of some distributions, their mixture satisfies the program of the mixture of the distributions (with the mixture of the margins); so no mixture of distributions generated by causal models of the graph is excluded. The option never makes the program stronger.",
 "all problems, generating sets, finite families of distributions and of causal models with arbitrary finite alphabets, all weights",
 "convexity is a statement about all families of distributions and all solutions, and fails silently if one product of marginals is recorded as a value",
 [SDP+":set_distribution",SDP+":set_values",SDP+":update_values",SDP+":_prepare_solver_arguments",MU+":compute_marginal"])
with open("/verif/properties.jsonl","w") as f:
    for x in P: f.write(json.dumps(x)+"\n")
print(len(P))

{
 "C01": "`Canon`. Model: `nb_lexmon_to_canonical`, `lexmon_is_zero`, `remove_projector_squares`, `to_canonical_1d_internal`. Spec: the congruence on words generated by commutation, `aa = a` and `ab = 0` for orthogonal operators. Induction on the word.",
 "C02": "`Canon`. The greedy form is the least word of its trace class; two words have the same form iff they are related by commutations (induction on the length, projection to the first letter).",
 "C03": "`Canon/Full.lean`. Normal forms of the full relation are unique; uses that outcomes of one measurement have the same commutation partners, which is then proved of every operator list (`C03_every_scenario`).",
 "C04": "`Canon`. Lexicographic minimality among all words in the same trace class, idempotence as a corollary.",
 "C05": "`Canon`. The shortcut for commuting operators (sort and deduplicate) is compared with the general loop.",
 "C06": "`Scenario/Commute*.lean`. `nb_operators_commute`, `commutation_matrix` and the party-pair table, against a specification in terms of shared sources and parties.",
 "C07": "`Cliques`. Breadth-first queue of `all_and_maximal_cliques` as a list; invariant over the queue: sorted by size then lexicographically, complete.",
 "C08": "`Cliques`. Maximality test of the same loop.",
 "C09": "`Components`, `Fact.lean`. Component labelling loop, grouping of the operators by label; specification: reachability via shared source copies.",
 "C10": "`Components`. The labels are 8-bit; faithful up to the capacity, with the collision beyond it as a witness.",
 "C11": "`Components`. The flag `_no_factorization`-style shortcut.",
 "C12": "`Scenario`. Nested loops over `ndindex` as list products; lookup tables and the compiled lookup.",
 "C13": "`Scenario`. Mixed-radix encoding of private setting and parents' outcomes, bijective.",
 "C14": "`Symmetry`. Source permutations acting on the operator list, compared with the set of all relabellings.",
 "C15": "`Symmetry`. Invariance of the commutation, orthogonality and canonical equality under rows of the symmetry table.",
 "C16": "`Orbits`. `_discover_inflation_orbits`; invariant of the sweep: visited events have the least member of their orbit as representative.",
 "C17": "`Orbits`. The cache of atomic representatives as a history of calls.",
 "C18": "`MomentMatrix`. The mutable index table as fold state; invariant relating indices and canonical words of `col_i† col_j`.",
 "C19": "`SymMM`. `apply_inflation_symmetries` on the index matrix, `_discover_columns_symmetries`, end to end for every problem.",
 "C20": "`Knowable`. `nb_is_knowable`, `_is_knowable_q_non_networks`, `rectify_fake_setting`, `nb_is_do_conditional`, against existence of an original event.",
 "C21": "`Positivity`. `nb_is_physical`; specification: a *-algebra with a positive functional and operators obeying the relations; sandwiching argument.",
 "C22": "`Marginal`. `compute_marginal` on tensors as functions of index lists; specification: sum over the outcomes of absent parties.",
 "C23": "`Marginal`. No-signalling distributions.",
 "C24": "`Moment`. Sorted factor lists, equality and hash of compound moments for LP and SDP.",
 "C25": "`Moment`. `CompoundMoment.evaluate`; soundness for every multiplicative valuation.",
 "C26": "`State`, `SdpState`. State machines of the two classes, induction over histories of public calls.",
 "C27": "`State`, `SdpState`. Invariants over all histories.",
 "C28": "`CollinsGisin`. Boolean event vectors, inclusion-exclusion over measurements, block structure of templates; specification: a probability distribution on outcome assignments of all inflated measurements. End to end from the user's scenario (`C28_every_problem`), and completeness (`C28_no_spurious_solutions`).",
 "C29": "`LpSolver` (matrices, dictionaries, MOSEK task), `State/LpProps`, `SdpState/Props` (solver arguments).",
 "C30": "`LpSolver/Relax.lean`. Relaxed problems are feasible with value >= 0 iff the original is feasible.",
 "C31": "`LpSolver/Cert*.lean`, `SdpSolver/Cert.lean`. Weak duality for the multipliers MOSEK may return.",
 "C32": "`SdpSolver`. Elimination loop over dictionaries and mask matrices; values of eliminated moments are recovered.",
 "C33": "`State`, `SdpState`. What the solver receives after `set_extra_*`.",
 "C34": "`SdpRepr`. Memo table as association list, induction over histories of calls.",
 "C35": "`State`. Cached views.",
 "C36": "`Certificates/Clean*.lean`. Exact numbers, any ordered field with a floor.",
 "C37": "`Optimize/Bisect.lean`. Invariant of the bisection loop with the cached function.",
 "C38": "`Optimize/Dual.lean`. Loop with decreasing bounds; termination by the archimedean property.",
 "C39": "`Writers`. The text is produced character by character and read back by an independent reader.",
 "C40": "`Names`. Names as character lists; injectivity and reading back.",
 "C41": "`Normalization`. `construct_normalization_eqs`, `_discover_normalization_eqns`, `expand_moment_normalisation`.",
 "C42": "`Columns`. `_build_cols_from_specs`, specification lists for NPA and local levels.",
 "C43": "`State`, `SdpState/Objective.lean`. Substitution of known and semi-known moments in the objective.",
 "C44": "`State`, `SdpState`. The stored result belongs to the current problem.",
 "C45": "`Scenario/DagLemmas.lean`. Tables of parents, sources and intermediate latents.",
 "C46": "`Positivity/Hermitian*.lean`. Default lower bounds on hermitian moments.",
 "C47": "`SdpRepr`. Representatives over any history.",
 "C48": "`State/LpTruth.lean`, `SdpState/Truth.lean`. Invariant: every stored value is true of a given assignment if all given values are.",
 "C49": "`SdpSolver/Cert.lean`.",
 "C50": "`Certificates/Report*.lean`.",
 "C51": "`SdpWriter`. `write_to_sdpa`: numbering of moments by first occurrence, sections, sorting, printing; independent reader and semantics of the sparse SDPA format. `write_to_mat` and `convert_to_human_readable`: modelled as the structures that are written, with an independent meaning (`Mat.Feasible`, `Human.Feasible`).",
 "C52": "`EndToEnd`. The whole chain InflationProblem -> InflationLP -> set_distribution -> solve as the composition of the component models (`Model.lean`), against an independent definition of classical causal models of the network and of its inflation (`Spec.lean`, finite expectation over sources). Proved by: events over disjoint source copies factorise, relabelling copies preserves probabilities, the generated rows hold for all distributions of events (C12/C13), marginals of knowable atoms agree with the model (C22/C24), truth is kept by the state (C48), and the solver's formulation (C29/C30).",
 "C53": "`EndToEnd/CertProps.lean`: composition of C52's row validity with C31.",
 "C54": "`SdpEnd`. The chain InflationProblem -> InflationSDP (moment matrix, representatives, factorisation, known values, equalities, default bounds) -> set_distribution -> solve as the composition of the component models (`Model.lean`). A model of the inflated network is an algebra of projectors with a state (`Spec.lean`); a classical causal model of the drawn graph (the specification of C52) is turned into one on the commutative algebra of functions of all source copies and answers (`Answers`, `Classical`, `ClassicalProps`), then C56's results apply and the default lower bounds hold because classical probabilities are non-negative.",
 "C55": "`SdpEnd/ClassicalSound.lean`: from C57 with the model of C54.",
 "C56": "`SdpEnd/Props.lean`, `Raise.lean`. The moments of the model satisfy every row the program generates: positivity of the moment matrix, equality of moments with the same representative (C47 and invariance of the state), factorisation, known values, normalisation; the state keeps truth over histories (C48); solver formulation (C33/C34). `Hermitian.lean`: BoundsSafe and its two sufficient conditions; `QuantumSound.lean`: set_distribution then solve never excludes; `HermitianFalse.lean`: the concrete failure (three qubits, one source with two copies).",
 "C57": "`SdpEnd/CertProps.lean`: weak duality at the model's moments.",
 "C58": "`Theory`. `Spec.lean`: theories as probabilities of joint events. `Columns.lean`: every column of a nonfanout program is a joint event and the rows hold for a theory; `Known.lean`: the values of set_distribution are those of the theory; `Props.lean`: composition with the state (C48) and solver (C29/C30). `QuantumNet`: tensor products of operators on named systems (`Tensor.lean`), product states (`State.lean`), the Born rule (`Spec.lean`), the inflated network (`Inflate.lean`, `Model.lean`) and its marginal on the original network (`Born.lean`).",
 "C59": "`Theory/CertProps.lean`: C31 at the probabilities of the theory.",
 "C60": "`Sanitise/`: the table of moments (names, symbols, cache of atoms) as a state; reachable states by induction; names injective on atoms of a consistent cache (C40), cache entries closed under symmetries (C16/C17), value by C52's factorisation and invariance; the text of a symbol determines the name (state machine of the regular expression, bracket depth for the commas).",
 "C61": "`Distinct/`: two columns with the same moment are related by one relabelling of the copies (relabellings of the factors, which touch disjoint copies, are glued to one relabelling); columns are representatives of different orbits; sub-events of events are events, hence closure; readiness of the state as an invariant of all calls; non-empty rows imply that the task exists (C29).",
 "C62": "`Views/`: the by-moment and by-name views, the dictionary of arguments and the absorbed bounds are modelled on top of the state of the LP; a row with different names has the value of the matrix row; proportionalities strictly shorten moments; freshness of the cached lists as an invariant; composed with the names (C60), the construction (C61) and the writer (C39).",
 "C63": "`Factorised/`: the six dictionaries are modelled with the table of moments as state; closure of the moments under factors (C61) makes all lookups succeed; the value of a column is the product over the factors (C52, C58); names differ (C60).",
 "C64": "`Search/`: the two searches with the program as state are shown equal to the pure searches of C37, C38 (set_values forgets all but bounds, objective, direction); the relaxed problem of a parameter with a model has a non-negative optimum in primal and dual form (C30, C52, C58), and certificates are non-negative there (C31).",
 "C65": "`Optimum/`: the objective in the state is the written one, with the sign of the direction (C26, C43); a model is a feasible point of the program given to the solver (C52, C54, C58), where the solver's value bounds the objective by weak duality (C30, C32) or by trust in the primal optimum; `readProduct` models how the semidefinite program reads a product of operators. The witness is Tsirelson's bound: all quantum networks have CHSH value at most 99/35.",
 "C66": "`SdpSearch/`: the search as a state machine around the model of the program (`SdpState`), every call of which may raise; an invariant says that every state in which the solver is asked is a run of truthful-if-the-model-explains-it calls; C54/C56 give a feasible point, weak duality (C30, C32) or the trusted primal value exclude a negative slack, C31 gives the sign of a certificate; the bisection and the loop over certificates are then analysed over an arbitrary stateful oracle.",
 "C67": "`SdpNames/`: the names an atom can get (created, or as an adjoint) as a relation, the table of moments with its name dictionary as a transition system; the words of the moment matrix and the canonical forms cannot be simplified, so representatives are least in their orbit; text lemmas (C58, C45) recover the operators from the name, and two least representatives with the same operators up to copy labels agree; an invariant of the table then gives the lookup.",
 "C68": "`Generate/`: two cells with the same moment have words in the same orbit (factor by factor; the relabellings of the factors glue to one of the whole because the factors use different copies, C61); a generating set preserved by a relabelling gives a permutation of the columns, which maps the one cell to a cell with the word of the other, so the symmetrised indices agree. Normalisation equalities: all indices come from the matrix and each measurement has at least two outcomes. Columns of `_build_cols_from_specs` are preserved because the letters allowed for a party are. The end-to-end theorem C54 is then restated without hypotheses on the program.",
 "C69": "`Physical/`: `Model` follows the templates of parties, the choice of measurements and the outcomes; `Spec` says what a physical product is (strictly increasing, pairwise together, within the levels), not mentioning templates; `Members` proves that the columns are exactly these words, each once; `Props` derives suitability for the moment matrix (C03, C05), closure under relabelling, the order, and through C68 that the relaxation is generated; `Text` models the reading of the strings.",
 "C70": "`Linear/`: `Involution` proves that the adjoint of atoms is an involution on representatives; `Separate` proves by induction over histories that known keys are atoms and their adjoints only, so unknown factors of semi-known moments make moments that are not known and not semi-known; `Props` combines this with C54/C56; `Excluded` has the counterexample for `set_values`, `Witness` a program with two linearised constraints.",
 "C71": "`Symbolic/`: `Model` has the product of noncommutative symbols, the dispatch of the list branch of `build_columns` and the reading of expressions (on top of the model of operator names of C40); `Props` proves that flattening a product gives its symbols back, that the name of an operator is not the name of a moment, and that it is read as the operator exactly if it has no `|do(`.",
 "C72": "`Symbolic/Measurements` has the model of `_generate_parties`; the copies are proved equal to those of the operators (induction over the sources), and the names equal to one of the legacy spellings, for which C40 gives the dictionary entry; names of moments contain brackets or are `0`. `Symbolic/MeasurementProps` has the theorems.",
 "C73": "`Listings/Relations`: the double loop over ranks as a filtered list of pairs, with the text of two operators split at `*`; by injectivity of `to_name` (C40) every pair appears once, and commutation is stated with `Incompatible` (the network specification of `Theory`).",
 "C74": "`Listings/FileNames`: `str.split` at dots, the dispatch on the last part; every name has a last dot or none.",
 "C75": "`Hierarchy`: the moment of a word is characterised up to the symmetry and the adjoint (`Orbit`, `Cells`), so a cell of the smaller moment matrix has the same moment as the corresponding cell of the larger one, which is a principal submatrix (`Solves`); the known values, default bounds and objective are functions of the moment (`Known`, `State`, `Values`), and those of the smaller program are among those of the larger one (`Transfer`).",
 "C76": "`Mixture`: the marginal of an atom is linear in the distribution (`Lemmas`); with the option exactly one, zero and the knowable atoms are known (`Hierarchy.valuesOf_shared`), so the program asks for values linear in the distribution, non-negative Hermitian moments, homogeneous equalities and a positive semidefinite matrix (`Fulfils`), all of which mixtures preserve. `Closed`: in a generating set containing the commuting parts of its words, every factor of a product of two words is a product of parts of these words, so the atoms that get values are moments (`atomics_moments`)."
}
# Formal model of ecboghiu/inflation in Lean 4

## Approach
The Python code is modelled function by function as small total Lean functions over `List`, `Nat`, `Int`, `Bool`,
`Option`, `ℚ` or an arbitrary ordered field. Loops become folds, structural recursion or recursion on an explicit
measure; in-place mutation becomes returning the new value; exceptions become `Option`/`Except` (and, for the stateful
classes, a state together with the exception, because the state an exception leaves behind matters). Every definition
cites the file and lines it models and says where it simplifies. Arrays are lists; symmetric boolean tables are
functions; dictionaries are association lists in insertion order (`State/Dict.lean`); Python sets are lists together
with an arbitrary iteration order where the order can be observed.

Layout: `lean/Verif/<Topic>/Model.lean` (model of the code), `Spec.lean` (small specification that does not mention the
code), `*Lemmas.lean` and similar (helpers), `Props.lean` (the property theorems, named `Cnn_...`, each followed by an
`example` showing that its hypotheses are met by a concrete non-trivial case) and `Witness.lean` (concrete instances and
negations). `tools/gen_manifest.py` collects the theorems into `MANIFEST.json`; `tools/gen_properties.py` and
`tools/gen_design.py` write `properties.jsonl` and this file; `tools/seed.py` runs the seeded-bug tests recorded in
`seeded/LOG.jsonl`.

Where the code violates a property the negation is proved with a concrete witness and the part that does hold is proved
under hypotheses that exclude the witness, with the suffix `_partial` where it falls short of the statement.

## Trusted base
* Lean 4.33.0's kernel. Axioms: only `propext`, `Classical.choice`, `Quot.sound`; none of our own. No `native_decide`,
  no `bv_decide`.
* Fidelity of the model to the Python text is by reading; every definition cites the lines it models. Nothing was run.
* Floating-point numbers are modelled by exact numbers of an ordered field, so rounding errors of arithmetic are not
  covered; the explicit tolerances in the code (`np.isclose`, `1e-8`, `chop_tol`) are modelled. Fixed-width integers are
  unbounded except where the width matters (8-bit component labels, C10).
* External code is represented by its contract where it is used: MOSEK (any answer allowed by its specification:
  feasible/optimal points, multipliers with the right signs), SLSQP (arbitrary function, with hypotheses stated in the
  theorems), `scipy.optimize.bisect` (modelled after its C source), numpy (`unique`, `lexsort`, `isclose`, boolean
  indexing, bitwise operations), Python's `sorted` (stable insertion sort), `str` of floats (arbitrary printing function
  that can be read back).
* numba's compiled functions are read as Python.

## What is modelled
| file | modelled | not modelled |
|---|---|---|
| `InflationProblem.py` | construction of the tables (170-410), operator list, lookups, commutation and compatibility tables, templates, names, knowability, fake-setting rectification, factorisation, symmetries | warnings, `__repr__`, sympy symbols |
| `sdp/fast_npa.py` | everything but `reverse_mon`, `nb_all_commuting_q` as separate functions (inlined) | |
| `utils.py` | permutations, `clean_coefficients`, sparse expansion, `vstack`, cliques | `make_numerical` (sympy) |
| `lp/numbafied.py`, `lp/InflationLP.py` | lexboolvec generation, equalities, inequalities, Collins-Gisin transforms, orbits, values, objectives, bounds, extra constraints, solver arguments, resets, certificates, names | sympy output, verbose printing |
| `lp/monomial_classes.py`, `sdp/monomial_classes.py` | equality, ordering, names, knowability status, evaluation, marginals, hermiticity | sympy symbols |
| `lp/lp_utils.py` | conversion of dictionaries, all formulations handed to MOSEK, certificate | solver parameters, printing |
| `sdp/quantum_tools.py` | moment matrix, symmetrisation, normalisation equalities | sympy itself: its non-commutative symbols are words of factors (`Symbolic`, `Listings` model `generate_operators`, `commutation_relations`, `lexicographic_order`) |
| `sdp/InflationSDP.py` | canonicalisation and its caches, representatives, moment matrix, columns from specifications, normalisation search, column symmetries, values, objective, bounds, extra constraints, solver arguments, resets, certificates, names, `_generate_parties` | progress bars, logging |
| `sdp/sdp_utils.py` | preprocessing, primal and dual problems, certificate, reported matrix | solver parameters |
| `sdp/writer_utils.py` | `write_to_sdpa`, `write_to_mat`, `convert_to_human_readable` | `savemat`, the characters of the CSV file |
| `lp/writer_utils.py` | LP and MPS | |
| `optimization_utils.py` | both maximisation routines | sympy substitution |

The whole LP chain (constructor arguments, columns, rows, monomials, `set_distribution`, `solve`, certificate) is composed in
`EndToEnd/Model.lean` and proved sound against classical causal models (C52, C53).

## Testing the theorems against wrong programs
`seeded/LOG.jsonl` has one line per seeded bug: the definition edited in a scratch copy, the edit, the claim it breaks, the
theorems that failed to build, the claims that could no longer be derived, and theorems tightened as a consequence. A
mutation marked "control" need not break the claim.

## Properties

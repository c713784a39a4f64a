# Design: a Lean model of `graphical_models` and proofs about it

The code under study is the Python package in `/repo/graphical_models` (read only, never run).
The properties are in `properties.jsonl` (C01, C02, ...). The Lean project is in `lean/`.

## Layout

* `Verif/Spec/*.lean` – textbook notions, stated without any reference to the code: directed
  reachability, acyclicity, paths, active paths, d-/m-separation, skeleton, v-structures, Markov
  equivalence, compelled arcs, consistent extensions, ...  The property theorems are stated with these.
* `Verif/Model/*.lean` – the code, function by function, with file and line references.
* `Verif/Proof/*.lean` – lemmas.
* `Verif/Props/*.lean` – the property theorems, one file per area, each theorem with an `example` that shows
  that its hypotheses can be met, and `#print axioms` comments in `Verif/Audit.lean`.

## Modelling conventions

* **Nodes** are an arbitrary type with decidable equality (Python: hashable objects with `==`).
* **Sets** are `Finset`s, `defaultdict(set)` is a function `α → Finset α` that is `∅` on missing keys. The
  *key set* of a defaultdict is not part of that (reading creates keys in Python, with no effect on the results
  modelled there); where presence of a key matters (`del d[k]`) it is noted. For `DAG` the key sets are modelled in
  `Model/DAGKeys.lean` (C248), for `_adjacent` of `AncestralGraph` in `Model/AGKeys.lean` (C253), for the class of `cyclic_graph.py` in `Model/Cyclic.lean`.
* **Aliasing** is not part of the models: objects are values. That this is faithful for `UndirectedGraph`, and where it is not, is C249, with a
  model of the objects in memory (`Model/UGHeap.lean`); for the node lists of `GaussDAG` it is C250 (`Model/GaussHeap.lean`), for `DAG` C252 (`Model/DAGHeap.lean`),
  for the arrays of `GGM` C254 (`Model/GGMHeap.lean`), for the arrays returned by `GaussDAG` C255 (`Model/GaussCache.lean`).
* **Exceptions** are values. Mutators return the state *after* the call together with the outcome, so the
  state left behind by an exception is part of the model.
* **Non-termination** is a value too. Loops and recursions that are not structurally terminating are
  defined with `partial_fixpoint` in the `Option` monad (`none` = the Python code loops forever), and
  termination is a theorem (`≠ none`). Python's recursion limit and memory limits are not modelled.
* **Nondeterminism.** The iteration order of sets, the element returned by `set.pop()`, and random choices are
  arguments ("oracles") constrained only to return the elements of the set; theorems hold for all of them.
  An oracle may depend on the loop counter / on everything visited so far, so that iterating twice over equal
  sets may give different orders.
* **Type coercion** (`to_set`, "node or set of nodes" arguments) is resolved in the model: set-valued arguments
  are `Finset`s. The TypeErrors for empty sets (`set.union(*())`) are modelled where they matter.
* **Arithmetic** is exact (fields, integers); floating point is not modelled.
* `warn_untested`, `verbose`, printing, plotting and conversions to networkx/pandas/torch/R are not modelled.

## Trusted base

* Lean 4.33.0's kernel, and the axioms `propext`, `Classical.choice`, `Quot.sound` (Mathlib). No other axiom.
* The reading of the Python code: that each definition in `Verif/Model` does what the cited lines do.
* The spec definitions in `Verif/Spec`.
* The networkx functions used by `core_utils.compute_minimum_vertex_cover` (`connected_components`, bipartite matching and
  `to_vertex_cover`): a `CoverOracle` returns some smallest vertex cover of a bipartite component.
* The numpy and scipy functions `linalg.inv`, `cholesky`, `eigh`, `lstsq` and `random.normal`, as specified in the model; real
  numbers instead of floating point numbers.

## What is modelled

| code | model |
|---|---|
| `dag.py`: state, constructor, mutators, `topological_sort`, ancestors/descendants | `Model/DAG.lean`, `Model/History.lean`; keys of the dictionaries: `Model/DAGKeys.lean` |
| `dag.py`: constructor, `copy`, mutators and accessors in a memory shared with the caller | `Model/DAGHeap.lean` |
| `dag.py`: `ancestor_dict`, blankets, sources/sinks, `upstream_most`, v-structures, `shd*`, imset, subgraphs, renaming, `nodes_between`/`edges_between` | `Model/Queries.lean`, `Model/Imset.lean` |
| `dag.py`: `dsep`, `dsep_from_given`, `is_invariant`, `local_markov_statements` | `Model/DSep.lean` |
| `dag.py`: `is_imap`, `is_minimal_imap` | `Model/IMap.lean` |
| `dag.py`: `cpdag`, `cpdag_new`, `interventional_cpdag`, `markov_equivalent` | `Model/PDAG.lean`, `Model/Complete.lean` |
| `dag.py`: `reversible_arcs`, `compute_covered_edges` | `Model/Queries.lean`, `Model/Covered.lean` |
| `dag.py`: `resolved_sinks`, `apply_edge_operation`, `chickering_sequence` | `Model/Between.lean`, `Model/Chickering.lean` |
| `dag.py`: `optimal_fully_orienting_single_node_interventions`, `atomic_verification`, the two greedy design functions; `pdag.py`: `dominated_nodes` | `Model/Design.lean` |
| `dag.py`: `marginal_mag` (both implementations, `relabel`) | `Model/Marginal.lean` |
| `dag.py`: adjacency matrices; `pdag.py`: `from_amat`, `to_amat`, data frames | `Model/Amat.lean` |
| `dag.py`, `pdag.py`: confusion matrices | `Model/Confusion.lean` |
| `pdag.py`: removals, `replace_edge_with_arc`, `assign_parents`, `vstructs`, `to_complete_pdag_new`; `dag.py`: `cpdag_new(new=True)` | `Model/PDAGRest.lean` |
| `pdag.py`: state, mutators, `remove_unprotected_orientations`, `to_complete_pdag`, `interventional_cpdag` | `Model/PDAG.lean`, `Model/Complete.lean` |
| `pdag.py`: `to_dag`, `all_dags`, `shd`, `possible_parents`, chain components, `mec_size` | `Model/ToDag.lean`, `Model/AllDags.lean`, `Model/PDAGCompare.lean`, `Model/Components.lean`, `Model/MecSize.lean` |
| `ancestral_graph.py`: state, mutators, `msep`, `msep_from_given`, districts, Markov statements, queries, sorting, amat | `Model/AG.lean`, `Model/AGQueries.lean` |
| `ancestral_graph.py`: `to_maximal`, `is_maximal` (both implementations) | `Model/Maximal.lean` |
| `ancestral_graph.py`: `vstructures`, `colliders`, `discriminating_paths`, `markov_equivalent` | `Model/AGEquiv.lean` |
| `ancestral_graph.py`: `legitimate_mark_changes`, `get_all_mec` | `Model/AGMarks.lean` |
| `ancestral_graph.py`: `discriminating_triples`, `_tail_of`, `fast_markov_equivalent` | `Model/AGTriples.lean` |
| `ancestral_graph.py`: `is_imap`, `is_minimal_imap` | `Model/AGImap.lean` |
| `undirected_graph.py` | `Model/Undirected.lean` |
| `gaussdag.py`: weights, constructor, caches, means, precision, covariance, effects, sampling, counterfactuals | `Model/Gauss.lean`; `add_arcs_from`: `Model/GaussArcs.lean` |
| `gaussdag.py`: `marginal_precision`, `correlation`, `partial_correlation`, `regression_coefficients` | `Model/GaussMoments.lean` |
| `gaussdag.py`: `from_amat`, `from_precision`, `from_covariance` | `Model/GaussFactor.lean` |
| `gaussdag.py`: `logpdf`, `fast_logpdf`, `log_probability`, `sample_interventional`, `..._perfect`, `..._soft`; `interventions.py`: shifts | `Model/GaussPdf.lean` |
| `gaussdag.py`: `fit_mle`; `core_utils.py`: `get_extended_cov`, `linear_regression_mle` | `Model/GaussFit.lean` |
| `gaussdag.py`: `copy`, `arc_weights`, `interventional_dag`, `soft_interventional_dag`, `deterministic_intervention_means`, `interventional_covariance` | `Model/GaussIv.lean` |
| `discrete_dag.py`: tensor helpers, constructor, `get_marginals`, `get_marginal`, `get_marginals_new`, `get_conditional`, `get_mean_and_variance` | `Model/Discrete.lean` |
| `discrete_dag.py`: mutators inherited from `dag.py` | `Model/DiscreteInherited.lean` |
| `discrete_dag.py`: `sample`, `weighted_samples`, `sample_interventional`, `get_hard_interventional_dag` | `Model/DiscreteSample.lean` |
| `discrete_dag.py`: `get_marginal_dag` (`np.einsum` with names instead of letters) | `Model/DiscreteMarginalDag.lean` |
| `discrete_dag.py`: `get_conditional` (function), `fit` with `mle` and `add_one_mle` | `Model/DiscreteFit.lean` |
| `discrete_dag.py`: `get_efficient_influence_function`, `get_conditional_pgmpy`, `add_repeated_nodes_marginal` (pgmpy as an oracle) | `Model/Influence.lean` |
| `discrete_dag.py`: `fit` with classifiers (the classifier is an oracle), `extract_conditional`, `indicator_conditional`, `predict_from_parents` | `Model/DiscreteLearn.lean` |
| `discrete_dag.py`: `get_conditional_pgmpy` without values, `add_repeated_nodes_conditional`, `get_efficient_influence_function_conditionals` | `Model/DiscretePgmpy.lean` |
| `core_utils.py`: `get_extended_cov2` | `Model/ExtendedCov.lean` |
| `gaussdag.py`: the cached correlation in a memory shared with the caller | `Model/GaussCache.lean` |
| `ggm.py`: constructors, caches, `partial_correlation` | `Model/GGM.lean`; arrays shared with the caller: `Model/GGMHeap.lean` |
| `core_utils.py`: `random_max` | `Model/RandomMax.lean` |
| `discrete_dag.py`: `get_conditional_importance_sampling` | `Model/Importance.lean` |
| `gaussdag.py`: `set_node_mean` | `Model/GaussSetters.lean` |
| `camdag.py`: `direct_effect` | `Model/DirectEffect.lean` |
| `discrete_dag.py`: the dictionary of tables in a memory shared with the caller, `set_conditional`, `copy` | `Model/DiscreteHeap.lean` |
| `ggm.py`: `to_gauss_dag` | `Model/GGMToDag.lean` |
| `sample_dag.py`, `cam_dag.py`: sampling | `Model/Sampling.lean` |
| `core_utils.py`: `powerset`, `powerset_predicate` | `Model/CoreUtils.lean` |
| `rand/graphs.py`: `directed_erdos`, `directed_erdos_with_confounders`, `directed_random_graph`, `rand_weights` | `Model/Rand.lean` |
| `rand/graphs.py`: `rand_discrete_dag`, `rand_noisy_or_dag`, `tensor_product`, `unif_away_zero`, `unif_away_original`, `rand_nn_functions` (shapes) | `Model/RandDiscrete.lean` |
| `rand/graphs.py`: `rand_normal_wishart`, `alter_weights` | `Model/RandGauss.lean` |
| `dag.py`: `directed_clique_tree`, `contracted_directed_clique_tree`, `residuals`, `residual_essential_graph`, and networkx' `UnionFind` | `Model/CliqueTree.lean` |
| `dag.py`: `optimal_fully_orienting_single_node_interventions(new=True)`, `_verification_optimal_helper` | `Model/CliqueDesign.lean` |
| `ancestral_graph.py`: `markov_blanket_of` | `Model/AGBlanket.lean` |
| `ancestral_graph.py`: `is_minimal_imap2`, `is_minimal_imap3`, `is_minimal_imap4`, `resolved_quasisinks` | `Model/AGImap2.lean` |
| `ancestral_graph.py`: `shd_skeleton`, `as_hashed` | `Model/AGDistance.lean` |
| `undirected_graph.py`: `to_amat`, `from_amat`, `copy`, `rename_nodes`, `add_edges_from`, `delete_edges_from`, `__eq__` | `Model/UGConvert.lean`; in a shared memory: `Model/UGHeap.lean` |
| `pag.py`: `from_amat`, `to_amat`, `shd_skeleton` | `Model/PAG.lean` |
| `dag.py`: degrees, `sparsity`, `incoming_arcs`, `outgoing_arcs`, `parents_of` etc. for sets, `triples`, `to_dataframe`, `from_dataframe` | `Model/DAGSimple.lean` |
| `pdag.py`: `max_cliques`, `clique_size`, degrees, `rename_nodes`; `to_nx` and `from_nx` of the three graph classes | `Model/PDAGMore.lean` |
| `gaussdag.py`: `predict_from_parents`, `normalize_weights`, `round_weights`, `add_node`, `remove_node`, `cholesky_no_permutation` | `Model/GaussMisc.lean`; `to_dag`, shared node lists: `Model/GaussHeap.lean` |
| `discrete_dag.py`: `to_pgm`, `from_pgm` | `Model/Pgm.lean` |
| `rand/graphs.py`: `rand_additive_basis` | `Model/AdditiveBasis.lean` |
| `camdag.py`: `conditional_mean` | `Model/CamMean.lean` |
| `interventions.py`: sampling of mixtures, `pdf`, `ScalingIntervention`, `ShiftIntervention` on `SampleDAG` | `Model/Interventions.lean` |
| `discrete_dag_torch.py`: `get_marginals`, `get_marginals_torch` and helpers; `einops.einsum` is exact, broadcasting of axes of length one is not modelled | `Model/DiscreteTorch.lean` |
| `cyclic/cyclic_graph.py`: state as in `ancestral_graph.py` plus the order of the keys of `_parents`; all methods that do not only print or raise | `Model/Cyclic.lean` |
| `semi_markovian.py`: graph, formulas; the identification methods up to their call of `ancestors_of` | `Model/SemiMarkovian.lean` |

Not modelled: `functional_dag.py` (abstract), methods that only print, draw or raise `NotImplementedError`, file formats (gml, csv),
sparse matrices, fitting with sklearn or torch, floating point rounding.

## How each property is proved

Where a note in `MANIFEST.json` says more, it is not repeated here.

* **C01, C02** (`Proof/TopoSort`) the recursive depth first search with its four mutable structures; the stack is a reversed
  linear extension of the finished nodes, the current path is a walk; termination by the number of unvisited nodes.
* **C03** from C02: in an acyclic graph plus one arc, cyclic iff there is a path back. The rollback is modelled statement by
  statement, including the `KeyError` raised by the rollback itself for self loops.
* **C04** a history is a list of calls; invariant for histories without 2-cycles, witness for the rest.
* **C05, C06, C07, C08** bulk version of C03; witnesses; direct.
* **C09** closure property of the recursive accumulator. **C10** propagation along a topological order.
* **C11** a generic lemma on `pop` loops (the loop decides reachability of a stop state for every pop order) and a surgery from
  walks to paths in an abstract mixed graph (`Proof/Walks`), shared with C37.
* **C12, C13** from C11 by path arguments. **C14** non-backtracking link labelling against simple paths.
* **C15, C16** path arguments. **C17** C11 in the graph with an intervention node added.
* **C18, C20** Verma–Pearl: same skeleton and v-structures iff same separations, by covered reversals.
* **C19** Meek's rules closed under the loop; completeness by orienting the rest of a chordal graph (`Proof/Meek`,
  `Proof/Chordal`, `Proof/Orient`, `Proof/CPDAG`); each arc outside the closure is reversible.
* **C21, C22** local analysis of covered arcs; Chickering's lemma on covered reversals.
* **C23–C25** Dor–Tarsi invariant; witnesses. **C26** invariant of the search over all orientations.
* **C27, C28** counting per unordered pair. **C29–C31, C71** matrices as functions.
* **C32** transport along an injective map. **C33** paths between nodes of an ancestral set.
* **C34** moralisation. **C35, C36** ordered local Markov statements imply all separations (`Proof/IMap`).
* **C37–C39** as C11–C14 in mixed graphs. **C40, C41** invariants of the mutators; witnesses. **C42** component search.
* **C43** `j` is separated from `i` by the common ancestors in maximal graphs without undirected edges; witnesses for the rest.
* **C44, C81, C82** for every outcome of the draws. **C45, C46, C67** soundness and completeness of the rules.
* **C47** each node is the target of at most one covered arc. **C48** covered reversals keep the imset.
* **C49, C70** invariants. **C50–C53, C77–C80** matrix algebra with nilpotent weights; caches as state; witnesses.
* **C54, C55** combinatorics of `itertools.combinations`. **C56** component search. **C57, C76** order independence.
* **C58** well-foundedness. **C59** witness; the formulas for connected graphs by counting
  orientations without v-structures: each has one root, any node can be made the root by covered reversals, and the number
  of edges tells how many parents the other nodes have (`Proof/MecCount`); complete graphs have one orientation per linear
  order. **C60, C61** witnesses and exact description. **C62** greatest fixpoint.
* **C63, C85–C87** Chickering's theorem (Meek's conjecture). With `y` a sink of the I-map, the nodes are ordered such that the
  chosen `d` precedes every other descendant of `y` and `y` comes last; in this order each node stays separated from its
  predecessors given its parents in the I-map after the step (`Proof/ChickGraph`: ball games, `Proof/ChickStep`), so all
  separations follow from C35's lemma. Each step decreases `chickering_distance`, which bounds the number of steps.
* **C64, C83, C84** inducing paths; marginalisation of mixed graphs (`Proof/Segments`, `Proof/Marg`).
* **C65, C66, C68, C69** from C18, C19, C23. **C72–C74** exact queries on ancestral graphs. **C75** inducing paths
  (Richardson–Spirtes), closure of `_reachable`.
* **C88–C93** intervention design: the arcs learnt are the closure of the arcs cut by the targets, so learning is a union over
  targets (C88) and a coverage function; C89 exhaustive search; C90 vertex covers of the covered arcs; C91–C93 greedy choices,
  Nemhauser–Wolsey and Chvátal bounds.
* **C94–C96** Spirtes–Richardson (`Proof/Equiv*`): on a shortest open walk of one graph every shielded triple has a discriminating
  path, so colliders stay colliders (`SameMarks.status`); a walk with smallest distance of its colliders to the conditioning set
  stays open (`SameMarks.connected`). The search is a queue of partial paths with weight `(n+1)^(n+1-length)`.
* **C97, C98** Zhang–Spirtes lemma (`Proof/MarkChange`, `Proof/MarkMax`): the three local conditions against ancestrality,
  unshielded colliders and discriminating paths of the changed graph.
* **C99, C100** the loop visits the closure of the start under legitimate changes (`Proof/AGMec`). Completeness is the
  connectivity theorem: bidirected edges that block a change have a reason (a chain of discriminating paths, `Proof/InvPath`,
  `Proof/InvArrow`), hence are invariant or can be removed by an earlier change; then two graphs that differ only in arcs are joined by
  reversals through a bidirected edge (`Proof/InvArc`, `Proof/InvConn`).
* **C101, C102** Hu–Evans (`Proof/Triples`): the triples of the code are the *inseparable* triples, a notion that only depends on
  the m-separations. An inseparable triple is joined by a chain of colliders that are ancestors of the three nodes, which is found
  in a district. Conversely the triples determine whether the last inner node of a discriminating path is a collider, so C95's
  theorem applies.
* **C103, C104** m-separation obeys the rules of a compositional graphoid (`Proof/Graphoid`: symmetry, decomposition, composition,
  weak union, contraction, intersection). With these rules the pairwise statements give the local ones by induction on the
  size of a parent-closed set (take a sink out), and these give all separations (`Proof/PairwiseGlobal`).
* **C105, C106** if a maximal graph has fewer edges than `g`, then one of the missing edges can be removed from `g` with `g`
  staying maximal (`Proof/MinimalSub`): any directed one, or else a bidirected one whose ends have the fewest ancestors.
* **C107, C108, C110** block inverses (`Proof/GaussMoments`); the residuals of C108 are columns of the inverse of a block of the
  covariance, scaled. `np.linalg.inv` raises on singular matrices in the model, so these theorems include invertibility.
* **C109** `Proof/GaussMarkov`: by d-separation the nodes fall into a part with `i` and a part with `j` in the moral graph of the
  ancestors; the precision matrix of the ancestors has no entry between them.
* **C112, C113** existence of the Cholesky factor from Mathlib's LDL decomposition, uniqueness by induction
  (`Proof/GaussFactor`). Real arithmetic, but the tolerances of the code are kept. `scipy.linalg.cholesky` is specified by
  the definition `IsCholesky`: it returns the factor if there is one and raises otherwise.
* **C115–C120** densities with respect to Lebesgue measure (`Spec/Density`): the structural equations are a linear change of
  variables with determinant 1 (`Proof/GaussDensity`), so the density of the samples is the product of the densities of the
  noise. The draws of `np.random.normal` are independent normal variables (`NormalNoise`), a hypothesis of the theorems.
  The formula with eigenvalues is reduced to that one (`Proof/GaussEigh`); `np.linalg.eigh` is an `Eigh`: orthogonal eigenvectors that
  diagonalise.
* **C122–C126** `Proof/GaussIv`, on top of the theorems for the constructor and for sampling.
* **C127–C131** the tables are functions from index lists to extended reals; `einops.repeat` and broadcasting are modelled with
  their shape errors. Invariant of variable elimination (`Proof/DiscreteMarginals`): the exponential of the current table is the sum of the
  product of the added factors over the nodes summed out. Sums over assignments commute (`Proof/SumOut`), and factors of nodes
  outside the ancestral set sum to one.
* **C132–C134** a row is a random variable on any space with independent uniform numbers (`UniformNoise`); the event of an
  assignment is an intersection of intervals, one for each node (`Proof/DiscreteSample`). One row is modelled, since rows do not
  influence each other.
* **C135** `Proof/DiscreteIv`: product over nodes, split at the target.
* **C136** one node at a time (`Proof/DiscreteMarginalDag`): the removed factor and the factor of the only child are the only ones that
  mention the removed node. `Proof/DiscreteMarginalLoop` composes the steps and the relabelings.
* **C137–C139** `Proof/DiscreteFit`: the likelihood is a product over nodes and parent values; Gibbs' inequality for each. Division
  of zero by zero (no rows, or values outside the alphabet) is outside the theorems.
* **C140–C142** block inverses as in C107–C109 (`Proof/GGM`); if `C` separates `i` from `j`, the precision matrix of the nodes outside `C`
  falls into blocks.
* **C143–C148** for every outcome of the draws; witnesses. **C147** on shapes of arrays. **C148** (`Proof/RandGauss`) a fixed topological
  order contains old and new arcs, so no single insertion closes a cycle.
* **C149–C154** component search of C42, sort of C01; closure of the recursive accumulator; formulas denote functions of assignments,
  and sums over assignments are exchanged (`Proof/SemiMarkovian`). In C152 the code after `ancestors_of` is an arbitrary continuation.
* **C155, C156** a clique of undecided edges starts some elimination order of the undecided part (`Elim.rankClique`, from Dirac's
  theorem in `Proof/Chordal`); orienting along it gives the member of the class. Prescribing the parents of `v` has the effect of
  a target `{v}`, so the completion theorem behind C67 applies to that member (`Proof/LocalParents`, `Proof/PDAGRest`).
* **C157–C160** step by step through the statements; the state left behind by an exception is part of the model.
* **C161** a sum over nodes of differences of conditional expectations is a score, and the derivative of `E[g]` along a direction is its inner
  product with the score (`Proof/Tangent`); the imset collects these differences. The inference of pgmpy is an arbitrary function
  that answers exactly, with axes in the order of `variables`. **C162–C164** from the runs of `conditionalAt` and of the loop.
* **C165** the loop keeps: the arcs are those prescribed by the intersections, connected cliques are connected through cliques that contain
  their intersection, and a treated pair is connected or blocked by a source. Once all pairs with at least `w` common elements are
  treated they are connected (`Arcs.level`: induction on the size, downwards, and on the number of cliques above), so an edge never
  joins cliques with other common elements (`Arcs.cross`, with paths of common neighbours, `Proof/CommonPath`). The union-find
  structure is `Proof/UnionFind`. **C166–C168** follow the cliques that contain a given node up the tree (`Proof/Residuals`); the
  witness is run with `Proof/CliqueRun`.
* **C169** without double edges every residual is a clique whose nodes form a directed path of covered arcs, and every covered arc lies in such a
  path or joins a residual to its parents (`Proof/CliqueDesign`); every other node of a path is a smallest cover. With double edges only,
  every clique contains the parents of its nodes, so a clique is a path of covered arcs, the common head followed by its own tail; a smaller
  cover would have to save a node in a tail, which costs one in the head (`Proof/CliqueStar`).
* **C170** every walk that leaves the district and its parents passes one of the parents, not as a collider (`Proof/AGBlanket`). A
  separating set contains the district by induction along it, and then the parents.
* **C171–C173** loop invariants over the edge lists; the views of a consistent object are determined by its nodes and edges, so the round
  trips give equal objects. **C174, C175** entry by entry. **C176** double counting. **C178** induction over the cells with C03 for each
  insertion.
* **C179, C180** a shortest chordless cycle of undirected edges contradicts the elimination order that the DAG gives (`chordal_of_elim`); an
  arc of a CPDAG never joins nodes connected by undirected edges (`Shows.no_arc`). `nx.chordal_graph_cliques` is assumed to return the maximal
  cliques of a chordal graph (`Documented`). For the endless recursion: the only chain component is again such a graph, so
  the fixpoint is `none` (`maxCliques_stuck`). **C181** double counting. **C182, C183** the constructor is determined by nodes, arcs, edges.
* **C184** the elimination of C127 with the logarithm as a parameter (`getMarginalsBy_run`); the einsum sums the same product.
* **C185** the noise of a node is independent of its parents, because the total effect of the node on them vanishes (`condExp_parents`).
  **C186–C190** computation; the objects after `add_node` and `remove_node` are modelled with arrays of arbitrary lengths (`Gauss.Raw`).
* **C191** the loop is a sweep over the equations; the values of an ancestral set are functions of its noise (`measurable_of_noise`), so the
  noise of the other nodes is independent of them and the conditional expectation follows by induction along a topological order
  (`condExp_mean`).
* **C192** each entry is a fixed draw of its source once the choices are fixed (`pickDraw`); summing over all choices gives the product law
  (`pickDraw_law`). `mixtureDraws_exist` shows that the assumption on the draws can be met for all laws. **C193–C195** computation.
* **C196–C204** `cyclic_graph.py` is an older copy of `ancestral_graph.py` that also accepts directed cycles in the constructor. The state
  without the key order is an `AG` object reached by the same calls (`Reachable.base`), so the theorems for `AG` that do not assume
  ancestrality apply. `mem_targets` says which end nodes `discriminating_paths` reaches; keys with parents come first right after the
  constructor (`Front`). `passes_dir`, `passes_bi` compare the tests of `legitimate_mark_changes` with the conditions of C97.
* **C205–C207** loop invariant (`LoopInv`): the columns and coefficients of the nodes done so far are calibrated; a step scales both parts
  with square roots (`additiveScale_some`), and `sample` solves the same equations, which have one solution.
* **C208–C209** `unravel` inverts `ravel`, so the two reshapes and the transposition move the last axis to the front (`tabular_spec`);
  `from_pgm` does not look at the evidence (`fromPgm_reread`).
* **C210–C211** computation of the tables entry by entry; the classifier is any function whose rows are distributions over the classes
  seen in training (`Spec/Classifier`). **C212** sums of products. **C213–C214** exact inference and its behaviour on evidence are assumptions
  on the oracle (`ExactQuery`, `Responds`); the reshapes are followed index by index.
* **C215** the graph without an edge is an I-map as soon as its ends are independent given their ancestors (`test_iff`). For a bidirected
  edge this is `global_of_pairwise`. For a directed edge `i -> j` the ancestors change: `hall_of_cut` shows the statements "given all the
  rest of T" for all parent-closed sets T of the smaller graph, by induction on the ancestors of `i` missing from T and on the size of T
  (`hall_step` takes out a sink; a missing ancestor is added and removed again by the intersection rule). Maximality rules out the pairs that
  would become joined (`ind_of_ccon`). **C216–C217** computation.
* **C218** the structural equations of the order (`exists_sem`) are the target. The residual of an earlier node `f` after regression on all
  earlier nodes but itself is known in closed form (a row of the precision matrix of the earlier nodes), and it uses only the Markov
  blanket of `f` among them; its covariance with the new node is the weight of the arc up to a positive factor (`partialCorr_blanket`). So each
  arc test decides whether the weight is zero (`arcLoop_spec`), and the regressions on the parents give the weights and noise variances
  (`regress_spec`).
* **C219** the sum of the counts over the supersets of `S` is the number of nodes in `S` whose parents contain the rest of `S`;
  singletons give the nodes, pairs the skeleton and triples the v-structures. The tuple keys are ordered by an oracle per call.
* **C220** d-separation is separation in the moral graph of the ancestors (C34), so the product of the tables of the ancestors splits
  into a factor for the side of `A` and one for the rest; zeros need no special care. **C221** the chain rule along a topological order
  of the I-map, each factor simplified by C220.
* **C222** a fair coin as a further root decides which of the two networks supplies the tables of `I`; this mixture is a network on the
  augmented graph of `is_invariant`, to which C220 applies.
* **C223** a covariance matrix has structural equations along every order (`exists_sem`); along a topological order of the I-map the
  coefficient of a missing arc is a partial correlation given the other predecessors, which vanishes because the predecessors are
  d-separated (local Markov property, weak union) in the I-map and hence in the graph. The converse, and **C225**, use the distribution of
  C224. **C224** weights are chosen node by node along a topological order. If all pairs not separated among the nodes so far have nonzero
  partial covariance, then for the next node each such triple asks that a polynomial in the weights of its arcs be nonzero: a linear form if
  the node is one of the pair, `κ (1 + q) - l l'` (with a quadratic form `q` and linear forms `l`, `l'`) if it is conditioned on. That these
  polynomials are not identically zero follows from contraction, weak union and the local Markov property; finitely many nonzero
  polynomials have a common non-root. **C226** C18 and the construction of C221.
* **C227** as C224 with nodes of two values: node `v` is 1 with probability `(1 + Σ W p v s_p) / 2`, where `s_p = ±1` is the sign of the
  parent. The covariance of two signs given that all nodes of `C` are 1 is again a polynomial in the weights of the arcs into the next
  node: a linear form, or a difference of two products of affine forms, none of them identically zero. The weights are chosen positive and
  so small that all entries are at least 1/4, hence above the cut of the code. **C228** and **C229** compare a graph with the tables of
  C227 in one direction and use the construction of C221 in the other.
* **C230** the tables of C227 for the augmented graph of `is_invariant`, read off for the two values of the added root, give two networks
  that differ at `I` only; equal conditional distributions would make the root independent of `A` given `C`.
* **C231** `node2ix` keeps last positions, which are the only ones without repetitions. **C232** the distance is `shd + shd_skeleton`.
* **C233** the augmented graphs of two interventionally equivalent DAGs are Markov equivalent, so the conditional distribution of a node given its
  parents in the other graph is the same in all experiments that leave it alone; where the parents have probability zero the table is taken from
  any experiment where they have not. Conversely the two networks of C230 show that an arc out of a target cannot be reversed.
  **C234** equivalent DAGs stay equivalent without the arcs into the targets, so targets are independent of their parents in the other graph;
  conversely one arc of weight one half, cut in the experiment, is enough.
* **C235** `Hidden M` is the DAG with a parent of both ends of every bidirected edge and a child of both ends of every undirected edge. Given
  the children, every step of an m-connecting walk is a walk of one or two steps in it and conversely, with the same arrowheads at the nodes
  of the graph (`Canon.dsep_hidden`: d-separation in it is m-separation); then the Markov property (C220) and the faithful tables (C227).
  **C236**, **C237** from C103, C95, C102 by this translation; **C238** from C11 and C64; independence of sets is inherited by pairs by summation.
* **C239** with the nodes iterated from the last to the first node of an extension `F`, the node visited first is always a
  possible sink, so only arcs of `F` are collected; two extensions one of which contains the other are equal.
* **C240** without undirected triangles the arcs listed as reversible in any record are exactly the covered arcs oriented
  as in the result of `to_dag`, so every member is reached by a sequence of covered reversals leading away from it; for the
  violation the run is computed on arc sets coded as numbers (`Proof/AllDagsRun.lean`), which a simulation proof relates to
  the model, and the kernel evaluates 152 rounds.
* **C241** an outcome of the coins is a subset of the pairs, so expectations are sums over the subsets weighted by
  `p^k (1-p)^(N-k)`; relabelling by a permutation is a bijection of the pairs, so the skeleton has the same law for every
  permutation, and for a given DAG and permutation at most one subset gives it, and one does iff the permutation is a
  topological order. Swapping two labels pairs the permutations with `i` before `j` with the others. Independence and
  uniformity of numpy's generators are the definition of `Spec.Random.mean`.
* **C242** the part of node `j` that the normal equations leave over is compared in the model with one more source `none → i` of weight
  `c`: the separation of `j` and `none` given `{i} ∪ Z` makes the partial covariance vanish, and its value is (total effect −
  coefficient) times `c` and a positive factor (`adjust_core`). Conversely a faithful weight matrix on the augmented graph, with the arc of
  `none` removed, gives parameters for which the coefficient is wrong (`adjust_faithful`). The parents of `i` together with `i` are the Markov
  blanket of `none`.
* **C243** sum P'(Y) over the values of `Z`, add `t = c` to every event (the intervened network has no other value of `t`), and replace
  P'(Y | t, Z) and P'(Z) by the observational ones with C222. Where P(z) = 0 the term vanishes on both sides.
* **C244** C155 turns a possible parent set into a member of the class and back, C225's `gaussOn_mono` puts the covariance matrix on that
  member, and C242's adjustment for the parents holds in it, so that the regression coefficient is the effect there.
* **C245** directly on the sets of marks.
* **C246** (`Proof/GaussExperiments`) the residual of a variable given its parents in the second graph is a combination of errors of
  variables that are no targets (add an intervention node to the equations and use the Markov property), so it has the same variance in all
  experiments; minimality of residual variances then gives the same equations. Conversely one arc with unit weight tells the graphs apart.
* **C247** from C19, C46 and the characterisations of equivalence C225, C229, C233, C234, C246.
* **C248** the key sets of the three `defaultdict`s are carried along with the graph (`Model/DAGKeys.lean`); each keyed operation does to the
  graph what the operation of `Model/DAG.lean` does (`sim_exec`), so C04 applies; two invariants (a missing key stands for the empty set,
  all keys are nodes) are kept by every call.
* **C249** `Model/UGHeap` puts the set objects of any number of graphs into one memory shared with the caller; the invariant `Apart` says that
  no two attributes refer to the same set and none to a set of the caller. Every step is simulated by a step on values (`Spec/UGValues`).
* **C250** the same for `GaussDAG` and the node lists (`Model/GaussHeap`): objects whose lists are pairwise different and not reachable for
  the caller are simulated by values. **C251** from `DAG.new_ok`/`DAG.new_error` and the description of the constructor (C77).
* **C252** the methods of `DAG` are written as sequences of accesses to the attributes (`Prog`, `Model/DAGHeap`), which can be run in a memory
  shared with the caller and on values. `eval_ofOp`: on values they are the functions of `Model/DAG`. `exec_spec`: in a memory whose attributes share
  no set (`Apart`) each access does to the object what it does to the value and leaves the other objects alone. Mutators see the keys of the
  dictionaries only through lookups (a missing key is inserted, as in Python); the keys themselves are the subject of C248.
* **C253** the keys of `_adjacent` are carried along with the graph (`Model/AGKeys.lean`). Forgetting the keys gives the operations of
  `Model/AG.lean` (so the reachable states are those of C41), every adjacent node has a key, and additions create no other keys. What
  `remove_node` raises then follows from `AG.removeNode_spec`.
* **C254** objects and caller's variables hold addresses of matrices (`Model/GGMHeap`); `Spec/GGMValues` is the same language with matrices as
  values and the methods of `Model/GGM`. The simulation relation says that variables not lent to an object hold an address nobody else knows.
* **C255** only the cached correlation can be reached from outside, so objects are `Gauss` values with an address for it (`Model/GaussCache`); the
  other methods commute with replacing the cached correlation (`change_upd`, `read_upd`), the rest is the simulation of C254. Violated for arrays
  returned by `correlation`.
* **C256** (`Proof/SortTotal.lean`) the recursion only enters nodes that have not been visited, so the number of unvisited nodes decreases;
  no invariant of the object is needed. `C252_total` and `C255_values_partial` use it: the compared runs always have results.
* **C153** products (`Proof/FormulaProduct.lean`): the sum of a product of separate factors is the product of the sums.
* **C257** the theorems on `get_marginals`, `sample` and d-separation (C127, C132, C220) only need that the graph has an arc from each node on which
  a table depends (`Fits`, `Tabled` in `Spec/Discrete`), not that it has no other arcs; `Grown.kept`: successful calls of `add_arc` and
  `add_arcs_from` preserve this, the nodes and the tables. The counterexamples run `reverse_arc` and `remove_arc` on `0 → 1` with deterministic
  tables.
* **C258** `set_arc_weights` is cut into its three parts (weights, removals, additions); the removals keep the views consistent and the graph a
  subgraph of an acyclic one (`Proof/GaussArcs`). `add_arcs_from` is the case of weights 1.
* **C259** a memory of dictionaries (`Model/DiscreteHeap`), values in `Spec/DiscreteValues`, a simulation as for C254; the invariant is that every
  object has a dictionary of its own.
* **C260** the loop of `max` finds a largest element; the keys with that value are a list without repetition, indexed by the draw.
* **C261** the weighted indicator of a row is a bounded measurable function of the uniform numbers of the row, with the expectation given by C133;
  the strong law of large numbers holds for the rows, hence for the block of rows of each tuple, as the difference of two initial averages.
  Sums over the blocks are what the function computes; quotients converge where the limit of the denominator is not zero. A row drawn for
  values of probability zero has a weight zero, since no value of probability zero is ever drawn.
* **C262** one entry of an array is updated; the frame conditions are stated for every other attribute.
* **C263** the loop raises at the first node outside the conditioning nodes whose position is beyond the width; by counting there is one unless the
  conditioning nodes are the last.
* **C264** `fit` gives quotients of counts (C137-C139); counts divided by the number of rows converge by the law of large numbers of C261, with no
  conditioning nodes; the limit is the table by the factorisation of the distribution. The rows are those returned by `sample`: rows drawn with
  the same numbers are equal.
* **C265** the weights that minimise the residual sum of squares are compared with the true ones: in terms of the centred noise the difference
  is a linear combination without the noise of the node itself (the graph has no cycle), and the second moments of the noise converge to a
  diagonal matrix (strong law of large numbers), so that a minimiser has to converge; this holds for every solution that `lstsq` may choose;
* **C266** the samples are linear in the noise; the second moments of the noise converge (the same strong law as in C265);
* **C121** the likelihood is a sum over nodes; each summand is least squares (`Proof/GaussFit`). `np.linalg.lstsq` is an `Lstsq`:
  it solves the normal equations.

## Findings

Properties that the code violates (each `_violated` theorem is a concrete run of the model):

| property | where | what happens |
|---|---|---|
| C04 | `DAG.add_arc` | requesting `j -> i` while `i -> j` is present: the rollback removes the neighbour entries of the old arc |
| C06 | `DAG.add_arcs_from` | the rollback also removes arcs that were present before the call |
| C07 | `DAG.reverse_arc` | on a cycle the original arc is lost |
| C24 | `PDAG.to_dag` | isolated nodes are dropped |
| C25 | `PDAG.to_dag` | without a consistent extension a partial DAG is returned silently |
| C30 | `PDAG.from_amat` (line 96) | `source_axis=1` reads the matrix as if it were `source_axis=0`; `from_df` is right (C71) |
| C40 | `AncestralGraph.add_bidirected`, `add_directed` | ancestrality is not checked, or only for some iteration orders; an edge that raised `SpouseError` stays |
| C43 | `AncestralGraph.pairwise_markov_statements` | `a \| b - {i, j}` parses as `a \| (b - {i, j})`; ancestors instead of anteriors |
| C49 | `UndirectedGraph.add_edge` | end points are not added to the nodes |
| C51 | `GaussDAG` | covariance, precision and correlation are cached and never invalidated |
| C52 | `GaussDAG.means` | visits the labels 0..n-1 instead of a topological order |
| C59 | `PDAG.mec_size` | wrong on several chain components, and 0 for the graph without nodes |
| C60 | `DAG.confusion_matrix` | `num_false_positives` uses the false negative arcs; reversed arcs are counted twice; counts can be negative |
| C61 | `DAG.edges_between` | depends on the iteration order; empty for a single arc |
| C73 | `AncestralGraph.descendants_of` | excluded arcs are looked up reversed; sets of nodes ignore them |
| C77 | `GaussDAG.__init__`, `set_arc_weights` | cyclic weights are accepted |
| C78 | `GaussDAG.sample` | node labels are used as matrix columns |
| C81 | `directed_erdos_with_confounders` | nodes without arcs and with label `>= nnodes` are missing |
| C82 | `rand_weights` | `KeyError` for labels other than 0..n-1, for instance on the docstring's example |
| C89 | `optimal_fully_orienting_single_node_interventions` | returns `None` instead of the empty set if nothing is left to orient |
| C90 | `atomic_verification` | the result of `covered_edges.difference(cpdag.arcs)` is discarded: not smallest if `cpdag` knows orientations |
| C91 | `greedy_optimal_single_node_intervention` | with 0 interventions it goes on until everything is oriented |
| C96 | `AncestralGraph.markov_equivalent` | wrong in both directions if the graphs are not maximal |
| C100 | `AncestralGraph.get_all_mec` | a graph is marked as visited only when it is popped, so a graph found twice before that is listed twice |
| C104 | `AncestralGraph.is_imap` | `False` for `g.is_imap(g)` if `g` is `0 − 1 − 2` (wrong pairwise statements, C43) |
| C106 | `AncestralGraph.is_minimal_imap` | returns `(False, None)`, which is truthy, if the graph is no I-map |
| C111 | `GaussDAG.regression_coefficients` | wrong bias, from `means()` (C52) |
| C112, C113 | `GaussDAG.from_precision` | an absolute cutoff of 1e-8 on the Cholesky factor: arcs with weight up to 1e-8 standard deviations are lost, and precisions up to 1e-16 give NaN |
| C114 | `GaussDAG.from_amat` | positions are used as labels: `KeyError`, or the transposed matrix for `nodes=[1, 0]` |
| C115, C119 | `GaussDAG.logpdf` | ignores the biases |
| C116 | `GaussDAG.fast_logpdf`, `log_probability` | wrong centre, from `means()` (C52) |
| C120 | `GaussDAG.sample_interventional_soft` | ignores the biases of nodes without intervention |
| C121 | `GaussDAG.fit_mle` | variances are residual sums of squares: the division by the number of samples is missing |
| C122 | `GaussDAG.copy` | `arc_weights` uses labels as indices, and the node set is used as node list: the copy of a graph on `[1, 0]` loses its arc |
| C124 | `GaussDAG.deterministic_intervention_means` | like `means()`: visits the nodes in the order of their labels |
| C125 | `GaussDAG.soft_interventional_dag` | `interventions[j][i]` instead of `interventions[j][2][i]`: the bias becomes the weight of the arc from node 0, the variance that of the arc from node 1 |
| C126 | `GaussDAG.interventional_covariance` | mixes shapes: `ValueError` unless all nodes remain, or one |
| C127 | `no_warn_log` | probabilities up to 1e-10 are treated as zero |
| C129, C131 | `DiscreteDAG.get_marginals_new`, hence `get_conditional` by default | only one node without parents is put into the table: raises if the ancestral graph has two sources |
| C132 | `DiscreteDAG.sample` | nodes without parents get values of the alphabet, others get positions, and values index the tables: `IndexError` for the alphabets `[1, 2]` |
| C133 | `DiscreteDAG.weighted_samples` | node labels are used as columns |
| C134 | `DiscreteDAG.sample_interventional` | the dictionary of values is indexed with the column instead of the node |
| C136 | `DiscreteDAG.get_marginal_dag` | if a removed node has several children they become independent given the parents (7/16 becomes 25/64 on `1 ← 0 → 2`) |
| C138 | `DiscreteDAG.fit` | values of the parents are used as positions in their alphabets: `IndexError` for the alphabets `[1, 2]` |
| C143 | `rand_discrete_dag` | the nodes of the result are 0..n-1, whatever the labels are |
| C144 | `rand_noisy_or_dag` | `KeyError` for labels other than 0..n-1 |
| C145 | `unif_away_original` | the check is reversed: raises for `dist_original < low`, and does not keep the distance if it is larger than `low + abs(original)` |
| C147 | `rand_nn_functions` | all functions use the matrices of the node visited last (late binding), and they multiply samples by parents from the wrong side: `sample` raises `ValueError` for every graph with a node |
| C148 | `alter_weights` | `None + None` if a number is omitted: the documented probabilities cannot be used |
| C151 | `SemiMarkovian.ancestors_of` | raises `TypeError` for every graph and argument, after adding the ancestors to the caller's set |
| C152 | `SemiMarkovian.general_identification`, `sub_identification` | `TypeError` for every query outside two short cuts; the observational experiment `frozenset()` is never used |
| C153 | `Product.get_conditional`, `ProbabilityTerm.marginalize_out` | each factor is conditioned separately: raises if two factors share no variable; summing out all variables of a term changes nothing |
| C154 | `SemiMarkovian.mutilated_graph`, `induced_subgraph` | `TypeError` if one of the optional arguments is omitted; `ValueError` for bidirected loops |
| C157 | `cpdag_new(new=True)`, `to_complete_pdag_new` | the completion ends in its first pass without changing anything; compelled arcs outside v-structures come back undirected |
| C158 | `PDAG.remove_arc`, `remove_edge` | with an arc and an edge on one pair the neighbor views lose the remaining adjacency; `ignore_error=True` hides a half-done removal |
| C159 | `PDAG.remove_node` | `KeyError` for an isolated node, after the node has been removed |
| C160 | `PDAG.vstructs` | arcs from two parents joined by an undirected edge are reported, also on CPDAGs |
| C161, C162 | `DiscreteDAG.get_efficient_influence_function` | raises if a set of the imset contains both nodes, for instance for `T -> Y` alone |
| C166–C168 | `DAG.directed_clique_tree` | looks for sources among the union-find keys whose pointer is the root; pointers can be stale, so a component can get two predecessors, and `residuals` overlap |
| C169 | `optimal_fully_orienting_single_node_interventions(new=True)` | for clique trees with edges in both directions the result may leave covered arcs without an intervened end |
| C170 | `AncestralGraph.markov_blanket_of` | ignores children and undirected neighbours; the docstring calls it the Markov blanket |
| C171, C172 | `UndirectedGraph.add_edge` | does not add the labels to the nodes: `to_amat()` then raises `KeyError`, and `copy()` is not equal to the graph |
| C177 | `DAG.triples` | returns frozensets, so the middle node is lost and graphs with different triples get the same result |
| C180 | `PDAG.max_cliques`, `clique_size` | `TypeError` / `ValueError` for graphs with arcs and no undirected edge (CPDAG of `0 → 2 ← 1`); cliques of one node are missing; endless recursion for `0 - 1 - 2` with `0 → 2` |
| C182 | `PDAG.rename_nodes` | drops the known arcs |
| C183 | `PDAG.to_nx` | drops isolated nodes |
| C186 | `GaussDAG.normalize_weights` | `NameError` for every arc to a larger label; arcs to smaller labels are dropped |
| C187 | `GaussDAG.round_weights` | resets node list, biases and variances |
| C188 | `GaussDAG.remove_node` | index map, variances and biases are not updated; a second removal deletes the wrong entry |
| C189 | `GaussDAG.add_node` | the graph does not get the node, all weights become NaN |
| C190 | `cholesky_no_permutation` | entries of the factor below 1e-8 are dropped |
| C191 | `CamDAG.conditional_mean` | plugs conditional means into nonlinear mean functions; `KeyError` at roots without mean function, which `sample` does not need; `TypeError` for no nodes with `check_valid` |
| C193 | `ConstantIntervention.pdf`, `MultinomialIntervention.pdf` | one number for the whole array; `NotImplementedError` |
| C194 | `ScalingIntervention.sample` | `AttributeError` (`dag._means`) with the default mean; column of weights indexed by label |
| C195 | `ShiftIntervention.sample` on `SampleDAG` | conditional called with a one-dimensional array, unlike in `sample` |
| C197 | `cyclic_graph.AncestralGraph.add_directed` | on a graph with a cycle, adding an edge that is there raises and removes it; an edge that raised `SpouseError` stays |
| C199 | `cyclic_graph.AncestralGraph.vstructures` | `p2` instead of `p2_`: for some set orders `(0, 2, 0)` instead of `(0, 2, 1)` |
| C200 | `cyclic_graph.AncestralGraph.discriminating_paths` | `break` at the first key without parents; the result depends on earlier queries |
| C201 | `cyclic_graph.AncestralGraph.markov_equivalent` | `False` for a graph and itself, `True` for graphs that are not equivalent, as a consequence |
| C202 | `cyclic_graph.AncestralGraph.legitimate_mark_changes` | lists changes of `i <-> j` to `i -> j` that make the graph non-ancestral |
| C206 | `rand_additive_basis` | weights are matched to parents by position; another iteration order of the copy's sets of parents swaps them |
| C207 | `rand_additive_basis` | a missing entry of `r2_dict` raises `KeyError`; the announced exception is guarded by `except ValueError` |
| C209 | `DiscreteDAG.from_pgm` | axes of a table are assigned to the predecessors in the order of `get_parents`, not of the evidence |
| C210 | `DiscreteDAG.fit` with a classifier | class labels are used as positions in the table; wrong unless the alphabet is `0..k-1` |
| C211 | `DiscreteDAG.predict_from_parents` | values of the parents are used as positions: `IndexError` for the alphabet `1, 2`; a node without parents gives one row for any number of queries |
| C213 | `DiscreteDAG.get_conditional_pgmpy` | values are passed to pgmpy as state numbers; two common nodes raise |
| C214 | `get_efficient_influence_function_conditionals` | raises if a set of the imset contains both nodes, for instance with an arc `cond -> target` |
| C216 | `AncestralGraph.is_minimal_imap3`, `is_minimal_imap4` | `AttributeError` for every I-map with an edge: `markov_blanket` does not exist |
| C217 | `AncestralGraph.resolved_quasisinks` | `AttributeError` as soon as some node has no child in both graphs |
| C218 | `GGM.to_gauss_dag` | passes `means=` to a constructor that has no such parameter here (`TypeError`); biases and variances are listed in the order of the permutation but read in the order 0..n-1; it also prints every arc |
| C219 | `DAG.get_standard_imset` | turns frozensets into tuples in iteration order, so Markov equivalent graphs can return different dictionaries (arcs `{(0, 8)}` and `{(8, 0)}` in CPython) |
| C220 | `DiscreteDAG.get_marginals` | only the first node of the topological order keeps entries of at most 1e-10, so the conditional of a node can change when an independent node is given |
| C240 | `PDAG.all_dags` | depending on the iteration order of `reversible_arcs`, members of the class are missed: after reversing `i → j` the arc `j → i` is not marked reversible, and a set that was found before is not pushed again although the new record may list other arcs as reversible |
| C248 | `DAG.parents_of` etc., `DAG.remove_node` | asking about an object that is no node inserts it as a key of `dag.parents` etc. (`defaultdict`); after a rejected opposite arc `remove_node` raises halfway and leaves the key, the child and the arc of the removed node |
| C249 | `UndirectedGraph.neighbors` | returns the internal sets: adding to `U.neighbors[1]` changes the neighbors of 1, but neither the edges nor the degrees |
| C250 | `GaussDAG.__init__` | keeps the caller's list as `_node_list`: `add_node` on one graph changes the caller's list and `to_dag()` of every other graph made from it |
| C253 | `AncestralGraph.remove_node` | `KeyError` for a node without edges, after the node has been removed, unless earlier calls happened to look the node up in `_adjacent` |
| C254 | `GGM.__init__`, `from_covariance`, `covariance`, `correlation` | keep the caller's arrays and return the cached ones: changing such an array changes later results, the graph stays as it was |
| C255 | `GaussDAG.correlation` | returns the cached array itself (`weight_mat`, `precision`, `covariance` return copies): changing it changes `partial_correlation` |
| C257 | `DiscreteDAG.reverse_arc`, `remove_arc` (inherited) | the tables and `node2parents` are not changed: afterwards `sample` reads the initial zeros for a parent that has not been drawn yet, and `get_marginals` raises |
| C258 | `GaussDAG.set_arc_weights`, `add_arcs_from` | arcs that close a cycle in an existing object are accepted; `check_acyclic` of `add_arcs_from` is ignored |
| C259 | `DiscreteDAG.__init__` | keeps the caller's dictionary of tables: `set_conditional` on one object changes other objects built from it |
| C261 | `get_conditional_importance_sampling` | labels are used as columns (`IndexError` for a single node `1`); the default `cond_values=None` raises `TypeError` |
| C262 | `set_node_bias`, `set_node_variance` | the label is used as the position: with nodes `[1, 0]` the entry of the other node changes |
| C263 | `CamDAG.direct_effect` | the position of a node is used as its column in a narrower array: `IndexError` unless the conditioning nodes are the last, `nan` everywhere then |
| C264 | `DiscreteDAG.sample`, `fit` | `fit` uses labels as columns and `sample` positions: for a single node `1` the fit of a sample raises `IndexError` |
| C265 | `GaussDAG.fit_mle` | fitted variances of growing samples tend to infinity (as C121) |

Further observations made while modelling (not properties of their own):

* `AncestralGraph.markov_blanket_of(flat=False)` returns a dictionary with the internal parent sets (ancestral_graph.py:1339),
  so a caller can change the graph through it. `GaussDAG.correlation` and `GGM.correlation` return the cached array itself, while `covariance` and `precision` of `GaussDAG` return copies.
* `DAG.add_arc` of a self loop raises `KeyError` from its own rollback instead of `CycleError`. After any failed `add_arc` the
  nodes stay in the graph.
* `DAG.reverse_arc(ignore_error=True)` on a missing arc still adds the reversed arc. Its default `check_acyclic=False` can
  create a cycle.
* `DAG.remove_node` raises on graphs with 2-cycles.
* `descendants_of(set())`, and everything that calls `set.union(*())`, raises `TypeError`.
* `get_standard_imset` uses `tuple(frozenset)` as keys, so equal imsets may have different keys.
* `DAG.moral_graph` imports from the package `causaldag`.
* `DAG.chickering_sequence` never updates `last_sink`, so `seed_sink` is always `None`. The docstring says that edges are
  deleted; they are added. The docstring of `apply_edge_operation` promises three results; it returns two.
* `GaussDAG.optimal_intervention_greedy` calls a method that `DAG` does not have (`AttributeError`).
* `DAG.marginal_mag` with `relabel='default'` numbers from 0; the docstring says from 1.
* `PDAG.assign_parents` does not check that the parents form a clique (C156).
* `AncestralGraph.markov_blanket` does not exist although three methods call it. `_reachable` has a mutable default argument
  (harmless: its only caller passes a fresh set). `add_directed` of a self loop raises `KeyError`.
* `UndirectedGraph.add_edge` of a self loop gives degree 2; deleting such a node changes a set during iteration.
* `GaussDAG.direct_effects` returns total effects (C80). `add_node` fills the matrix with NaN and does not add the node.
  `normalize_weights` refers to an undefined name. `set_node_mean` raises. Integer biases make an integer array.
* `ScalingIntervention.sample` without a mean reads `dag._means`, which no class sets. `ConstantIntervention.pdf` gives one number
  for all rows.
* `directed_erdos(1, exp_nbrs=...)` divides by zero.
* `get_efficient_influence_function` indexes the marginal by the value of the condition, not by its position (harmless for alphabets
  `0..k-1`); `partial=False` calls a method that does not exist (C164).
* `directed_clique_tree` iterates over the result of `nx.chordal_graph_cliques` twice; in versions of networkx where that is a generator the
  tree has no edges. `residual_essential_graph` imports `PDAG` from `causaldag`.
* `DiscreteDAG.get_hard_interventional_dag` for a value outside the alphabet silently gives a table of zeros. `get_marginals_new([])`
  returns 1 also with `log=True`. The constructor does not compare `node2parents` with the arcs.
* `GGM(P)` has default means 1, `GGM.from_adjacency` 0. The mutators inherited from `UndirectedGraph` do not change the precision
  matrix. `to_gauss_dag` imports from `causaldag` and passes an argument `means` that `GaussDAG` does not have.

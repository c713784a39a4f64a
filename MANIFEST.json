{
 "claims": [
  {
   "property": "C01",
   "status": "proved",
   "theorems": [
    "Props.C01_topological_sort"
   ],
   "note": "All iteration orders; termination included."
  },
  {
   "property": "C02",
   "status": "proved",
   "theorems": [
    "Props.C02_cycle_error"
   ],
   "note": "Also: no other exception, termination, and the reported cycle is a closing walk."
  },
  {
   "property": "C03",
   "status": "proved",
   "theorems": [
    "Props.C03_add_arc"
   ],
   "note": "The exception on a self loop is KeyError, not CycleError (the rollback raises)."
  },
  {
   "property": "C04",
   "status": "partial",
   "theorems": [
    "Props.C04_views_partial",
    "Props.C04_violated"
   ],
   "note": "Violated when an arc opposite to a present one (or a self loop) is requested: the rollback of add_arc removes the neighbor entries of the old arc. Proved for all histories without such requests."
  },
  {
   "property": "C05",
   "status": "proved",
   "theorems": [
    "Props.C05_constructor"
   ],
   "note": ""
  },
  {
   "property": "C06",
   "status": "partial",
   "theorems": [
    "Props.C06_add_arcs_from_partial",
    "Props.C06_violated"
   ],
   "note": "Violated: the rollback also removes arcs that were present before. Proved for given arcs disjoint from the present ones and without 2-cycles."
  },
  {
   "property": "C07",
   "status": "partial",
   "theorems": [
    "Props.C07_reverse_arc_partial",
    "Props.C07_violated"
   ],
   "note": "Violated: after a failed reverse_arc the original arc is lost. The partial theorem characterises the outcome exactly."
  },
  {
   "property": "C08",
   "status": "proved",
   "theorems": [
    "Props.C08_remove_node"
   ],
   "note": ""
  },
  {
   "property": "C09",
   "status": "proved",
   "theorems": [
    "Props.C09_reachability"
   ],
   "note": ""
  },
  {
   "property": "C10",
   "status": "proved",
   "theorems": [
    "Props.C10_dicts"
   ],
   "note": ""
  },
  {
   "property": "C100",
   "status": "partial",
   "theorems": [
    "Props.C100_violated",
    "Props.C100_listed_once_partial"
   ],
   "note": "Violated: graphs are marked visited when popped from the queue, not when pushed, so a graph found along two branches is listed twice (0 -> 1, 2 -> 3 for every iteration order). Proved: the set of listed graphs is right."
  },
  {
   "property": "C101",
   "status": "proved",
   "theorems": [
    "Props.C101_discriminating_triples"
   ],
   "note": "Undirected edges are allowed."
  },
  {
   "property": "C102",
   "status": "proved",
   "theorems": [
    "Props.C102_fast_markov_equivalent",
    "Props.C102_agrees"
   ],
   "note": "The theorem of Hu and Evans (2020) is proved from scratch; undirected edges are allowed."
  },
  {
   "property": "C103",
   "status": "proved",
   "theorems": [
    "Props.C103_is_imap"
   ],
   "note": "Pairwise statements imply all separations by the compositional graphoid rules; both directions for all disjoint sets."
  },
  {
   "property": "C104",
   "status": "partial",
   "theorems": [
    "Props.C104_violated",
    "Props.C104_is_imap_self_partial"
   ],
   "note": "Violated: for 0 - 1 - 2, g.is_imap(g) is False. Partial: true without undirected edges."
  },
  {
   "property": "C105",
   "status": "proved",
   "theorems": [
    "Props.C105_is_minimal_imap"
   ],
   "note": ""
  },
  {
   "property": "C106",
   "status": "partial",
   "theorems": [
    "Props.C106_violated",
    "Props.C106_is_minimal_imap_partial"
   ],
   "note": "Violated: for graphs that are no I-maps the result is the pair (False, None), which is truthy. Partial: a correct boolean for I-maps."
  },
  {
   "property": "C107",
   "status": "proved",
   "theorems": [
    "Props.C107_marginal_precision"
   ],
   "note": ""
  },
  {
   "property": "C108",
   "status": "proved",
   "theorems": [
    "Props.C108_partial_correlation"
   ],
   "note": ""
  },
  {
   "property": "C109",
   "status": "proved",
   "theorems": [
    "Props.C109_markov",
    "Props.C109_dsep"
   ],
   "note": ""
  },
  {
   "property": "C11",
   "status": "proved",
   "theorems": [
    "Props.C11_dsep"
   ],
   "note": ""
  },
  {
   "property": "C110",
   "status": "proved",
   "theorems": [
    "Props.C110_best",
    "Props.C110_structural"
   ],
   "note": ""
  },
  {
   "property": "C111",
   "status": "partial",
   "theorems": [
    "Props.C111_bias_partial",
    "Props.C111_violated"
   ],
   "note": "Violated by the code (means() is wrong if an arc points to a smaller label); proved if every arc points to a larger label."
  },
  {
   "property": "C112",
   "status": "partial",
   "theorems": [
    "Props.C112_from_precision_partial",
    "Props.C112_rejects",
    "Props.C112_asymmetric",
    "Props.C112_violated"
   ],
   "note": "Violated by the code (entries of the Cholesky factor up to 1e-8 are set to zero); proved if no nonzero entry is that small."
  },
  {
   "property": "C113",
   "status": "partial",
   "theorems": [
    "Props.C113_from_covariance_partial",
    "Props.C113_singular",
    "Props.C113_violated"
   ],
   "note": "Violated by the code (same cutoff as C112); proved if no nonzero weight is that small relative to the standard deviation. Singular matrices raise LinAlgError."
  },
  {
   "property": "C114",
   "status": "partial",
   "theorems": [
    "Props.C114_from_amat_partial",
    "Props.C114_violated"
   ],
   "note": "Violated by the code (positions are used as labels); proved for the node list 0..n-1."
  },
  {
   "property": "C115",
   "status": "partial",
   "theorems": [
    "Props.C115_iff",
    "Props.C115_logpdf_partial",
    "Props.C115_violated"
   ],
   "note": "Violated: biases are ignored; one node with bias 1. C115_iff: right exactly if all biases are zero."
  },
  {
   "property": "C116",
   "status": "partial",
   "theorems": [
    "Props.C116_iff",
    "Props.C116_fast_logpdf_partial",
    "Props.C116_log_probability_partial",
    "Props.C116_violated"
   ],
   "note": "Violated through means(): 1 -> 0 with biases 0, 1. C116_iff: right exactly if means() is right about the nodes."
  },
  {
   "property": "C117",
   "status": "proved",
   "theorems": [
    "Props.C117_agree"
   ],
   "note": ""
  },
  {
   "property": "C118",
   "status": "proved",
   "theorems": [
    "Props.C118_perfect",
    "Props.C118_general"
   ],
   "note": ""
  },
  {
   "property": "C119",
   "status": "partial",
   "theorems": [
    "Props.C119_interventions_partial",
    "Props.C119_violated"
   ],
   "note": "Violated: biases are ignored. The partial theorem covers all interventions if the nodes without intervention have zero bias."
  },
  {
   "property": "C12",
   "status": "proved",
   "theorems": [
    "Props.C12_dsep_symm"
   ],
   "note": ""
  },
  {
   "property": "C120",
   "status": "partial",
   "theorems": [
    "Props.C120_sample_interventional",
    "Props.C120_soft_partial",
    "Props.C120_violated"
   ],
   "note": "sample_interventional is right; sample_interventional_soft ignores the biases of the nodes without intervention."
  },
  {
   "property": "C121",
   "status": "partial",
   "theorems": [
    "Props.C121_weights_partial",
    "Props.C121_rescaled_partial",
    "Props.C121_violated"
   ],
   "note": "Violated: the variances are the residual sums of squares, not divided by the number of samples. Weights and biases are right; with the division everything is."
  },
  {
   "property": "C122",
   "status": "partial",
   "theorems": [
    "Props.C122_copy_partial",
    "Props.C122_weights_partial",
    "Props.C122_violated"
   ],
   "note": "Violated: node list [1, 0]; the copy loses the arc. Holds for the node list 0..n-1."
  },
  {
   "property": "C123",
   "status": "proved",
   "theorems": [
    "Props.C123_interventional_dag"
   ],
   "note": ""
  },
  {
   "property": "C124",
   "status": "partial",
   "theorems": [
    "Props.C124_means_partial",
    "Props.C124_expectation_partial",
    "Props.C124_violated"
   ],
   "note": "Violated: 1 -> 0. Holds if all arcs point to larger labels."
  },
  {
   "property": "C125",
   "status": "partial",
   "theorems": [
    "Props.C125_soft_partial",
    "Props.C125_violated"
   ],
   "note": "Violated: the label of the parent is used as index of the triple (bias, variance, weights). Holds if the targets have no parents."
  },
  {
   "property": "C126",
   "status": "partial",
   "theorems": [
    "Props.C126_empty_partial",
    "Props.C126_raises",
    "Props.C126_violated"
   ],
   "note": "Violated: ValueError whenever S is not empty and at least two nodes remain. Holds for the empty set."
  },
  {
   "property": "C127",
   "status": "partial",
   "theorems": [
    "Props.C127_marginals_partial",
    "Props.C127_log_partial",
    "Props.C127_marginal_partial",
    "Props.C127_violated"
   ],
   "note": "Proved if no entry of a table is positive but at most 1e-10; otherwise such entries are treated as zero (witness: one node with probabilities 1 - 1e-11 and 1e-11)."
  },
  {
   "property": "C128",
   "status": "proved",
   "theorems": [
    "Props.C128_mean_and_variance"
   ],
   "note": ""
  },
  {
   "property": "C129",
   "status": "partial",
   "theorems": [
    "Props.C129_marginals_new_partial",
    "Props.C129_raises",
    "Props.C129_violated"
   ],
   "note": "Proved: the call comes to an end, the table is right if there is one, and there is one if all ancestors but one have exactly one parent. It raises whenever two ancestors have no parents (witness: two isolated nodes)."
  },
  {
   "property": "C13",
   "status": "proved",
   "theorems": [
    "Props.C13_graphoid"
   ],
   "note": ""
  },
  {
   "property": "C130",
   "status": "proved",
   "theorems": [
    "Props.C130_conditional",
    "Props.C130_raises"
   ],
   "note": ""
  },
  {
   "property": "C131",
   "status": "partial",
   "theorems": [
    "Props.C131_conditional_partial",
    "Props.C131_raises",
    "Props.C131_violated"
   ],
   "note": "Like C129 (witness: P(2 | 0) in 0 -> 2 <- 1)."
  },
  {
   "property": "C132",
   "status": "partial",
   "theorems": [
    "Props.C132_sample_partial",
    "Props.C132_violated"
   ],
   "note": "Proved for alphabets 0..k-1. Violated for other alphabets: nodes without parents get values of the alphabet, the others positions, and the values are used as positions in the tables; with alphabets [1,2] on 0 -> 1 sample raises IndexError with positive probability."
  },
  {
   "property": "C133",
   "status": "partial",
   "theorems": [
    "Props.C133_weighted_samples_partial",
    "Props.C133_weights_partial",
    "Props.C133_violated"
   ],
   "note": "Proved for labels that are the columns and alphabets 0..k-1. Violated for other labels: samples[:, nodes] uses labels as columns; a single node with label 1 raises IndexError."
  },
  {
   "property": "C134",
   "status": "partial",
   "theorems": [
    "Props.C134_sample_interventional_partial",
    "Props.C134_violated"
   ],
   "note": "Proved for labels that are the columns and alphabets 0..k-1. Violated for other labels: the dictionary is indexed with the column; a single node with label 1 raises KeyError."
  },
  {
   "property": "C135",
   "status": "proved",
   "theorems": [
    "Props.C135_hard_interventional_dag"
   ],
   "note": ""
  },
  {
   "property": "C136",
   "status": "partial",
   "theorems": [
    "Props.C136_marginal_dag_proper",
    "Props.C136_marginal_dag_partial",
    "Props.C136_marginal_dag_relabel_partial",
    "Props.C136_violated"
   ],
   "note": "Violated if a removed node has two children (C136_violated). Proved: the result is a proper DiscreteDAG, and the distribution is kept if each removed node has at most one child, with and without relabeling."
  },
  {
   "property": "C137",
   "status": "proved",
   "theorems": [
    "Props.C137_fit_mle"
   ],
   "note": ""
  },
  {
   "property": "C138",
   "status": "partial",
   "theorems": [
    "Props.C138_fit_alphabets_partial",
    "Props.C138_violated"
   ],
   "note": "Violated for alphabets other than 0..k-1 (C138_violated); proved for alphabets 0..k-1."
  },
  {
   "property": "C139",
   "status": "proved",
   "theorems": [
    "Props.C139_fit_add_one"
   ],
   "note": ""
  },
  {
   "property": "C14",
   "status": "proved",
   "theorems": [
    "Props.C14_dsep_from_given"
   ],
   "note": ""
  },
  {
   "property": "C140",
   "status": "proved",
   "theorems": [
    "Props.C140_edges",
    "Props.C140_pairwise_markov",
    "Props.C140_global_markov"
   ],
   "note": ""
  },
  {
   "property": "C141",
   "status": "proved",
   "theorems": [
    "Props.C141_partial_correlation"
   ],
   "note": ""
  },
  {
   "property": "C142",
   "status": "proved",
   "theorems": [
    "Props.C142_from_covariance",
    "Props.C142_from_adjacency"
   ],
   "note": ""
  },
  {
   "property": "C143",
   "status": "partial",
   "theorems": [
    "Props.C143_rand_discrete_partial",
    "Props.C143_violated"
   ],
   "note": "Violated: the result has the nodes 0..n-1 whatever the labels are. The partial theorem is for graphs with these labels."
  },
  {
   "property": "C144",
   "status": "partial",
   "theorems": [
    "Props.C144_noisy_or_partial",
    "Props.C144_violated"
   ],
   "note": "Violated: KeyError for labels other than 0..n-1. The partial theorem is for graphs with these labels."
  },
  {
   "property": "C145",
   "status": "partial",
   "theorems": [
    "Props.C145_unif_away_zero",
    "Props.C145_unif_away_original_partial",
    "Props.C145_violated"
   ],
   "note": "Violated: the check of unif_away_original is reversed. The partial theorem is for low <= dist <= low + |x|."
  },
  {
   "property": "C146",
   "status": "proved",
   "theorems": [
    "Props.C146_rand_normal_wishart"
   ],
   "note": ""
  },
  {
   "property": "C147",
   "status": "partial",
   "theorems": [
    "Props.C147_graph_partial",
    "Props.C147_violated",
    "Props.C147_function"
   ],
   "note": "Violated for every graph with a node. The partial theorem is about nodes and arcs; C147_function says which functions can be evaluated at all."
  },
  {
   "property": "C148",
   "status": "partial",
   "theorems": [
    "Props.C148_alter_weights_partial",
    "Props.C148_violated",
    "Props.C148_too_many"
   ],
   "note": "Violated: TypeError if a number is omitted. The partial theorem is for numbers, labels 0..n-1 and an ascending iteration of the set of labels (see C122 for copy)."
  },
  {
   "property": "C149",
   "status": "proved",
   "theorems": [
    "Props.C149_constructor",
    "Props.C149_c_components"
   ],
   "note": ""
  },
  {
   "property": "C15",
   "status": "proved",
   "theorems": [
    "Props.C15_local_markov"
   ],
   "note": ""
  },
  {
   "property": "C150",
   "status": "proved",
   "theorems": [
    "Props.C150_topological_sort"
   ],
   "note": ""
  },
  {
   "property": "C151",
   "status": "partial",
   "theorems": [
    "Props.C151_collected_partial",
    "Props.C151_violated"
   ],
   "note": "Violated for every input: the recursion always ends in set.union() without arguments, so TypeError is raised; with include_argument=True the caller's set has grown."
  },
  {
   "property": "C152",
   "status": "partial",
   "theorems": [
    "Props.C152_matching_partial",
    "Props.C152_violated"
   ],
   "note": "Violated for every input outside the two short cuts: TypeError from ancestors_of. An empty matching experiment (observational data) is falsy and not used."
  },
  {
   "property": "C153",
   "status": "partial",
   "theorems": [
    "Props.C153_conditional_partial",
    "Props.C153_all_others_partial",
    "Props.C153_marginalize_partial",
    "Props.C153_product_partial",
    "Props.C153_violated_product",
    "Props.C153_violated"
   ],
   "note": "Right for one conditional probability with variables summed out, and for products whose factors all have the variables conditioned on and are otherwise separate. Violated: a product of factors with disjoint variables can not be conditioned; marginalize_out of all variables of a term returns the term."
  },
  {
   "property": "C154",
   "status": "partial",
   "theorems": [
    "Props.C154_induced_subgraph_partial",
    "Props.C154_mutilated_graph_partial",
    "Props.C154_violated"
   ],
   "note": "Right without bidirected loops and with both arguments. Violated: omitted argument raises TypeError; a bidirected loop raises ValueError."
  },
  {
   "property": "C155",
   "status": "proved",
   "theorems": [
    "Props.C155_possible_parents",
    "Props.C155_cpdag"
   ],
   "note": ""
  },
  {
   "property": "C156",
   "status": "proved",
   "theorems": [
    "Props.C156_assign_parents",
    "Props.C156_key_error",
    "Props.C156_unchecked"
   ],
   "note": ""
  },
  {
   "property": "C157",
   "status": "partial",
   "theorems": [
    "Props.C157_cpdag_new_partial",
    "Props.C157_violated"
   ],
   "note": "to_complete_pdag_new never changes anything: its protected sets start empty, so the first pass finds no arc and the loop ends. Proved: the result is the v-structure pattern, and it is the CPDAG iff no other arc is compelled."
  },
  {
   "property": "C158",
   "status": "partial",
   "theorems": [
    "Props.C158_removals_partial",
    "Props.C158_remove_all_arcs_partial",
    "Props.C158_remove_from_partial",
    "Props.C158_violated"
   ],
   "note": "Proved when no pair carries two marks; the constructor accepts an arc and an edge on the same pair, for which the views drift and ignore_error hides a half-done removal."
  },
  {
   "property": "C159",
   "status": "partial",
   "theorems": [
    "Props.C159_remove_node_partial",
    "Props.C159_violated"
   ],
   "note": "remove_node of an isolated node raises KeyError from `del self._neighbors[node]` after the node has been removed. Proved for nodes with an entry in _neighbors."
  },
  {
   "property": "C16",
   "status": "proved",
   "theorems": [
    "Props.C16_markov_blanket"
   ],
   "note": ""
  },
  {
   "property": "C160",
   "status": "partial",
   "theorems": [
    "Props.C160_vstructs_partial",
    "Props.C160_violated"
   ],
   "note": "vstructs only looks for arcs between the two parents, not for undirected edges. Proved: superset always, equality if no two parents are joined by an edge."
  },
  {
   "property": "C161",
   "status": "partial",
   "theorems": [
    "Props.C161_influence_partial",
    "Props.C161_unique",
    "Props.C161_violated"
   ],
   "note": "Proved if no set of get_standard_imset contains both nodes, for every exact inference. Otherwise the function raises (C162); C161_violated is the arc T -> Y. The inference of pgmpy is an oracle."
  },
  {
   "property": "C162",
   "status": "proved",
   "theorems": [
    "Props.C162_both_raise"
   ],
   "note": ""
  },
  {
   "property": "C163",
   "status": "proved",
   "theorems": [
    "Props.C163_unseen"
   ],
   "note": ""
  },
  {
   "property": "C164",
   "status": "proved",
   "theorems": [
    "Props.C164_full_raises",
    "Props.C164_no_samples"
   ],
   "note": ""
  },
  {
   "property": "C165",
   "status": "proved",
   "theorems": [
    "Props.C165_forest",
    "Props.C165_directed_clique_tree"
   ],
   "note": "nx.chordal_graph_cliques is an oracle: any list of exactly the maximal cliques, iterable twice"
  },
  {
   "property": "C166",
   "status": "partial",
   "theorems": [
    "Props.C166_contracted_partial",
    "Props.C166_violated"
   ],
   "note": "the partition, the arcs and acyclicity hold for all DAGs; a node can have two predecessors"
  },
  {
   "property": "C167",
   "status": "partial",
   "theorems": [
    "Props.C167_residuals_partial",
    "Props.C167_violated"
   ],
   "note": "nonempty and covering always; disjoint if no node of the contracted tree has two predecessors; not always"
  },
  {
   "property": "C168",
   "status": "partial",
   "theorems": [
    "Props.C168_residual_essential_partial",
    "Props.C168_violated"
   ],
   "note": "proved if no node of the contracted tree has two predecessors"
  },
  {
   "property": "C169",
   "status": "partial",
   "theorems": [
    "Props.C169_optimal_new_partial",
    "Props.C169_both_ways_partial",
    "Props.C169_violated"
   ],
   "note": "Proved if the clique tree has no two cliques joined in both directions, and if all of its edges have both directions and connected nodes of several cliques are adjacent; otherwise the result may not be a verifying set (C169_violated)."
  },
  {
   "property": "C17",
   "status": "proved",
   "theorems": [
    "Props.C17_is_invariant"
   ],
   "note": ""
  },
  {
   "property": "C170",
   "status": "partial",
   "theorems": [
    "Props.C170_markov_blanket_partial",
    "Props.C170_dictionary",
    "Props.C170_violated"
   ],
   "note": "The result is contained in every separating set for all nodes; it separates for nodes without children and undirected edges; C170_violated shows that it does not in general."
  },
  {
   "property": "C171",
   "status": "partial",
   "theorems": [
    "Props.C171_to_amat_partial",
    "Props.C171_from_amat",
    "Props.C171_round_trip",
    "Props.C171_violated"
   ],
   "note": "Proved for graphs whose edges join nodes; after add_edge with a new label to_amat raises KeyError (C171_violated)."
  },
  {
   "property": "C172",
   "status": "partial",
   "theorems": [
    "Props.C172_copy_partial",
    "Props.C172_rename",
    "Props.C172_rename_back",
    "Props.C172_violated"
   ],
   "note": "Proved for graphs whose edges join nodes; otherwise the copy has more nodes (C172_violated)."
  },
  {
   "property": "C173",
   "status": "proved",
   "theorems": [
    "Props.C173_bulk"
   ],
   "note": ""
  },
  {
   "property": "C174",
   "status": "proved",
   "theorems": [
    "Props.C174_matrix_round_trip",
    "Props.C174_normal_form",
    "Props.C174_diagonal",
    "Props.C174_graph_round_trip"
   ],
   "note": ""
  },
  {
   "property": "C175",
   "status": "proved",
   "theorems": [
    "Props.C175_shd_skeleton"
   ],
   "note": ""
  },
  {
   "property": "C176",
   "status": "proved",
   "theorems": [
    "Props.C176_degrees",
    "Props.C176_sparsity",
    "Props.C176_views_of_sets"
   ],
   "note": ""
  },
  {
   "property": "C177",
   "status": "partial",
   "theorems": [
    "Props.C177_triples_partial",
    "Props.C177_violated"
   ],
   "note": "The result contains the right sets of three nodes, but not which node is in the middle."
  },
  {
   "property": "C178",
   "status": "proved",
   "theorems": [
    "Props.C178_from_dataframe",
    "Props.C178_round_trip"
   ],
   "note": ""
  },
  {
   "property": "C179",
   "status": "proved",
   "theorems": [
    "Props.C179_cpdag",
    "Props.C179_interventional"
   ],
   "note": ""
  },
  {
   "property": "C18",
   "status": "proved",
   "theorems": [
    "Props.C18_markov_equivalent"
   ],
   "note": "cpdag model with all iteration orders; equivalence of equal CPDAG, same skeleton and v-structures, and equal dsep answers proved in both directions"
  },
  {
   "property": "C180",
   "status": "partial",
   "theorems": [
    "Props.C180_max_cliques_partial",
    "Props.C180_clique_size_partial",
    "Props.C180_cpdag_partial",
    "Props.C180_violated",
    "Props.C180_recursion_violated"
   ],
   "note": "Proved if there is an undirected edge and no arc inside a chain component, for the cliques of at least two nodes. Violated: CPDAG of a v-structure raises TypeError/ValueError; isolated nodes are missing; an arc between nodes of one component that carries all undirected edges makes both functions recurse forever."
  },
  {
   "property": "C181",
   "status": "proved",
   "theorems": [
    "Props.C181_degrees"
   ],
   "note": ""
  },
  {
   "property": "C182",
   "status": "partial",
   "theorems": [
    "Props.C182_rename_partial",
    "Props.C182_violated"
   ],
   "note": "Proved for nodes, arcs, edges, views and the KeyError. Violated: the known arcs are lost."
  },
  {
   "property": "C183",
   "status": "partial",
   "theorems": [
    "Props.C183_dag",
    "Props.C183_undirected",
    "Props.C183_pdag_partial",
    "Props.C183_violated"
   ],
   "note": "Proved for DAGs and undirected graphs, for PDAGs if no node is isolated. Violated: PDAG.to_nx drops isolated nodes."
  },
  {
   "property": "C184",
   "status": "proved",
   "theorems": [
    "Props.C184_marginals",
    "Props.C184_log",
    "Props.C184_einsum",
    "Props.C184_no_nodes"
   ],
   "note": ""
  },
  {
   "property": "C185",
   "status": "proved",
   "theorems": [
    "Props.C185_predict",
    "Props.C185_unknown",
    "Props.C185_conditional_mean"
   ],
   "note": ""
  },
  {
   "property": "C186",
   "status": "partial",
   "theorems": [
    "Props.C186_normalize_partial",
    "Props.C186_raises",
    "Props.C186_forgets",
    "Props.C186_violated"
   ],
   "note": "violated: the name B is undefined, so any arc to a larger label raises NameError; arcs to smaller labels are dropped. Holds only without arcs."
  },
  {
   "property": "C187",
   "status": "partial",
   "theorems": [
    "Props.C187_round_partial",
    "Props.C187_violated"
   ],
   "note": "violated: node list, biases and variances are reset to their defaults; the weights are right"
  },
  {
   "property": "C188",
   "status": "partial",
   "theorems": [
    "Props.C188_remove_node_partial",
    "Props.C188_stale",
    "Props.C188_violated"
   ],
   "note": "violated: _node2ix, _variances and _biases are not updated, labels are used as indices; the graph and the weight matrix are right after the first removal from 0..n-1"
  },
  {
   "property": "C189",
   "status": "partial",
   "theorems": [
    "Props.C189_add_node_partial",
    "Props.C189_violated"
   ],
   "note": "violated: the graph does not get the node and all weights become NaN"
  },
  {
   "property": "C19",
   "status": "proved",
   "theorems": [
    "Props.C19_cpdag"
   ],
   "note": "soundness and completeness of the orientation rules (Meek) proved from scratch; termination and order independence of remove_unprotected_orientations included"
  },
  {
   "property": "C190",
   "status": "partial",
   "theorems": [
    "Props.C190_cholesky_partial",
    "Props.C190_rejects",
    "Props.C190_violated"
   ],
   "note": "violated for factors with entries below 1e-8, which are set to zero"
  },
  {
   "property": "C191",
   "status": "partial",
   "theorems": [
    "Props.C191_equations",
    "Props.C191_conditional_mean_partial",
    "Props.C191_missing",
    "Props.C191_invalid",
    "Props.C191_empty",
    "Props.C191_violated",
    "Props.C191_violated_root"
   ],
   "note": "Proved: the equations solved by the result, the error cases, and that it is the conditional expectation if each node outside the conditioning list has an affine mean function or only conditioned parents. Violated for x -> x**2 on 0->1->2, and for roots without mean function (KeyError)."
  },
  {
   "property": "C192",
   "status": "proved",
   "theorems": [
    "Props.C192_multinomial",
    "Props.C192_binary"
   ],
   "note": "The law of the array is the product of the mixture law; choices and components are assumed independent as drawn by numpy."
  },
  {
   "property": "C193",
   "status": "partial",
   "theorems": [
    "Props.C193_pdf_partial",
    "Props.C193_violated",
    "Props.C193_violated_multinomial"
   ],
   "note": "Proved for normal distributions and nested two-component mixtures. Violated if a ConstantIntervention occurs (one number for the whole array) and for MultinomialIntervention (NotImplementedError)."
  },
  {
   "property": "C194",
   "status": "partial",
   "theorems": [
    "Props.C194_scaling_partial",
    "Props.C194_violated",
    "Props.C194_violated_order"
   ],
   "note": "Proved for nodes 0..n-1 with mean given. The default mean raises AttributeError; for other node lists the wrong column of weights is read."
  },
  {
   "property": "C195",
   "status": "partial",
   "theorems": [
    "Props.C195_shift_partial",
    "Props.C195_violated"
   ],
   "note": "Proved for conditionals that accept one-dimensional rows. Violated by lambda vals: vals[:, 0]."
  },
  {
   "property": "C196",
   "status": "proved",
   "theorems": [
    "Props.C196_views",
    "Props.C196_total",
    "Props.C196_cycles_accepted"
   ],
   "note": ""
  },
  {
   "property": "C197",
   "status": "partial",
   "theorems": [
    "Props.C197_violated",
    "Props.C197_add_directed_partial"
   ],
   "note": "violated: on the cycle 0->1->2->0 add_directed(0, 1) raises and deletes the existing edge 0->1. Proved: the edges are unchanged if the edge was not there before and the exception is not SpouseError; a call that returns is right."
  },
  {
   "property": "C198",
   "status": "proved",
   "theorems": [
    "Props.C198_msep"
   ],
   "note": ""
  },
  {
   "property": "C199",
   "status": "partial",
   "theorems": [
    "Props.C199_violated",
    "Props.C199_vstructures_partial"
   ],
   "note": "violated: p2 instead of p2_ in the stored triple, so for the iteration order 1, 0 the collider 0->2<-1 is reported as (0, 2, 0). Proved: what holds for all orders, and exactness if the sets are iterated in sorted order."
  },
  {
   "property": "C20",
   "status": "proved",
   "theorems": [
    "Props.C20_cpdag_eq"
   ],
   "note": ""
  },
  {
   "property": "C200",
   "status": "partial",
   "theorems": [
    "Props.C200_violated",
    "Props.C200_discriminating_paths_partial",
    "Props.C200_built_partial"
   ],
   "note": "violated: break instead of continue at a key without parents; after parents_of(0) on a new object nothing is found. Proved: exact characterisation of the paths found for all histories, and completeness for objects that have only been queried since the constructor."
  },
  {
   "property": "C201",
   "status": "partial",
   "theorems": [
    "Props.C201_violated",
    "Props.C201_violated_keys",
    "Props.C201_markov_equivalent_partial"
   ],
   "note": "violated in both directions (C199, C200). Proved: right for objects that have only been queried since the constructor and sorted iteration orders."
  },
  {
   "property": "C202",
   "status": "partial",
   "theorems": [
    "Props.C202_violated",
    "Props.C202_legitimate_mark_changes_partial",
    "Props.C202_undirected_partial"
   ],
   "note": "violated: the change of 0<->1 to 0->1 is listed for 1<->0<->2, 1->2, although the result is not ancestral. Proved: the first set is exact; the second set contains all right changes and its other members lead to graphs that are not ancestral; ValueError with undirected edges."
  },
  {
   "property": "C203",
   "status": "proved",
   "theorems": [
    "Props.C203_copy",
    "Props.C203_eq",
    "Props.C203_amat_round_trip"
   ],
   "note": ""
  },
  {
   "property": "C204",
   "status": "proved",
   "theorems": [
    "Props.C204_to_maximal",
    "Props.C204_ancestors_of"
   ],
   "note": ""
  },
  {
   "property": "C205",
   "status": "proved",
   "theorems": [
    "Props.C205_calibrated"
   ],
   "note": "Real arithmetic; draws are parameters. Runs in which a coefficient becomes inf or nan without an exception are a separate outcome."
  },
  {
   "property": "C206",
   "status": "partial",
   "theorems": [
    "Props.C206_sample_partial",
    "Props.C206_replay_partial",
    "Props.C206_violated"
   ],
   "note": "Proved if the sets of parents are iterated over in the same order in both graphs. Otherwise violated: weights are matched to parents by position, so they are swapped; witness with variance 4/17 instead of 1/2."
  },
  {
   "property": "C207",
   "status": "partial",
   "theorems": [
    "Props.C207_returns_partial",
    "Props.C207_default",
    "Props.C207_missing",
    "Props.C207_violated"
   ],
   "note": "Proved: no exception and a result in the nondegenerate case. Violated: a missing entry raises KeyError, since the code catches ValueError."
  },
  {
   "property": "C208",
   "status": "proved",
   "theorems": [
    "Props.C208_to_pgm"
   ],
   "note": "pgmpy and networkx are represented by the network's graph and tables; row-major reshaping is modelled."
  },
  {
   "property": "C209",
   "status": "partial",
   "theorems": [
    "Props.C209_from_pgm_partial",
    "Props.C209_round_trip_partial",
    "Props.C209_reread",
    "Props.C209_violated"
   ],
   "note": "Proved if get_parents lists the parents in the order of the evidence. Otherwise violated: the axes are assigned to parents in the order of get_parents; witness whose round trip has another distribution."
  },
  {
   "property": "C21",
   "status": "proved",
   "theorems": [
    "Props.C21_reversible_arcs"
   ],
   "note": ""
  },
  {
   "property": "C210",
   "status": "partial",
   "theorems": [
    "Props.C210_fit_learned_partial",
    "Props.C210_default",
    "Props.C210_violated"
   ],
   "note": "Proved for alphabets 0..k-1 and for the default alphabets. For other alphabets the class labels are used as positions."
  },
  {
   "property": "C211",
   "status": "partial",
   "theorems": [
    "Props.C211_predict_partial",
    "Props.C211_roots",
    "Props.C211_negative",
    "Props.C211_violated"
   ],
   "note": "Proved for nodes with parents and alphabets 0..k-1. Without parents there is one row whatever the number of queries; other alphabets are used as positions."
  },
  {
   "property": "C212",
   "status": "proved",
   "theorems": [
    "Props.C212_extended_cov",
    "Props.C212_regression"
   ],
   "note": ""
  },
  {
   "property": "C213",
   "status": "partial",
   "theorems": [
    "Props.C213_conditional_partial",
    "Props.C213_raises",
    "Props.C213_violated"
   ],
   "note": "Proved for alphabets 0..k-1, at least one node that is not conditioned on and at most one common node. With two common nodes the function raises; for other alphabets the values are taken as state numbers."
  },
  {
   "property": "C214",
   "status": "partial",
   "theorems": [
    "Props.C214_conditionals_partial",
    "Props.C214_raises",
    "Props.C214_violated"
   ],
   "note": "Proved if no set of the imset contains both nodes; otherwise the function raises."
  },
  {
   "property": "C215",
   "status": "proved",
   "theorems": [
    "Props.C215_is_minimal_imap2",
    "Props.C215_not_imap",
    "Props.C215_agree"
   ],
   "note": ""
  },
  {
   "property": "C216",
   "status": "partial",
   "theorems": [
    "Props.C216_minimal_partial",
    "Props.C216_raises",
    "Props.C216_not_imap",
    "Props.C216_violated"
   ],
   "note": "Proved for graphs without edges. With an edge both methods raise AttributeError, because the method markov_blanket does not exist."
  },
  {
   "property": "C217",
   "status": "partial",
   "theorems": [
    "Props.C217_resolved_partial",
    "Props.C217_raises",
    "Props.C217_violated"
   ],
   "note": "Proved if every node has a child in one of the graphs. Otherwise the method raises AttributeError, because markov_blanket does not exist."
  },
  {
   "property": "C218",
   "status": "partial",
   "theorems": [
    "Props.C218_any_order_partial",
    "Props.C218_natural_order_partial",
    "Props.C218_violated",
    "Props.C218_violated_keyword"
   ],
   "note": "Violated: the constructor of GaussDAG in this package has no parameter means (TypeError), and biases and variances are passed in the order of the permutation although the node list is 0..n-1. Proved for a class that takes means: for every order the graph is a minimal I-map consistent with the order and the computed numbers are right for the nodes they belong to; for the natural order covariance and mean are those of the model. Partial correlations must be zero or larger than the tolerance 1e-8 of isclose. The classes imported from causaldag are modelled by those of this package."
  },
  {
   "property": "C219",
   "status": "partial",
   "theorems": [
    "Props.C219_imset_markov_partial",
    "Props.C219_violated"
   ],
   "note": "Proved for calls that enumerate equal sets alike; violated when the tuples of equal sets are ordered differently."
  },
  {
   "property": "C22",
   "status": "proved",
   "theorems": [
    "Props.C22_covered_reversals"
   ],
   "note": ""
  },
  {
   "property": "C220",
   "status": "partial",
   "theorems": [
    "Props.C220_marginals_partial",
    "Props.C220_conditional_partial",
    "Props.C220_violated"
   ],
   "note": "Proved for tables without positive entries of at most 1e-10; violated otherwise."
  },
  {
   "property": "C221",
   "status": "proved",
   "theorems": [
    "Props.C221_represents",
    "Props.C221_refit"
   ],
   "note": ""
  },
  {
   "property": "C222",
   "status": "proved",
   "theorems": [
    "Props.C222_tables",
    "Props.C222_hard"
   ],
   "note": ""
  },
  {
   "property": "C223",
   "status": "proved",
   "theorems": [
    "Props.C223_covariance",
    "Props.C223_realised",
    "Props.C223_is_imap"
   ],
   "note": ""
  },
  {
   "property": "C224",
   "status": "proved",
   "theorems": [
    "Props.C224_faithful"
   ],
   "note": ""
  },
  {
   "property": "C225",
   "status": "proved",
   "theorems": [
    "Props.C225_gaussian"
   ],
   "note": ""
  },
  {
   "property": "C226",
   "status": "proved",
   "theorems": [
    "Props.C226_discrete"
   ],
   "note": ""
  },
  {
   "property": "C227",
   "status": "proved",
   "theorems": [
    "Props.C227_faithful"
   ],
   "note": ""
  },
  {
   "property": "C228",
   "status": "proved",
   "theorems": [
    "Props.C228_is_imap"
   ],
   "note": ""
  },
  {
   "property": "C229",
   "status": "proved",
   "theorems": [
    "Props.C229_markov_equivalent"
   ],
   "note": ""
  },
  {
   "property": "C23",
   "status": "proved",
   "theorems": [
    "Props.C23_to_dag"
   ],
   "note": ""
  },
  {
   "property": "C230",
   "status": "proved",
   "theorems": [
    "Props.C230_is_invariant"
   ],
   "note": ""
  },
  {
   "property": "C231",
   "status": "proved",
   "theorems": [
    "Props.C231_orders",
    "Props.C231_topological_sort",
    "Props.C231_missing",
    "Props.C231_order_dependent"
   ],
   "note": ""
  },
  {
   "property": "C232",
   "status": "proved",
   "theorems": [
    "Props.C232_chickering_distance"
   ],
   "note": ""
  },
  {
   "property": "C233",
   "status": "proved",
   "theorems": [
    "Props.C233_interventional"
   ],
   "note": ""
  },
  {
   "property": "C234",
   "status": "proved",
   "theorems": [
    "Props.C234_perfect_interventions"
   ],
   "note": ""
  },
  {
   "property": "C235",
   "status": "proved",
   "theorems": [
    "Props.C235_msep",
    "Props.C235_faithful"
   ],
   "note": ""
  },
  {
   "property": "C236",
   "status": "proved",
   "theorems": [
    "Props.C236_is_imap"
   ],
   "note": ""
  },
  {
   "property": "C237",
   "status": "proved",
   "theorems": [
    "Props.C237_markov_equivalent"
   ],
   "note": ""
  },
  {
   "property": "C238",
   "status": "proved",
   "theorems": [
    "Props.C238_dsep",
    "Props.C238_marginal_mag"
   ],
   "note": ""
  },
  {
   "property": "C239",
   "status": "proved",
   "theorems": [
    "Props.C239_to_dag_every",
    "Props.C239_to_dag_reverse_order"
   ],
   "note": ""
  },
  {
   "property": "C24",
   "status": "partial",
   "theorems": [
    "Props.C24_to_dag_nodes_partial",
    "Props.C24_violated"
   ],
   "note": "The code violates the property: isolated nodes are dropped. Proved: the result has nodes of the PDAG only, and all of them exactly when there is no isolated node (given an extension exists)."
  },
  {
   "property": "C240",
   "status": "partial",
   "theorems": [
    "Props.C240_violated",
    "Props.C240_all_dags_partial"
   ],
   "note": "The full statement fails: for two disjoint copies of two triangles sharing an edge (8 nodes, 100 members) there is a fixed order of the arcs for which one member is missing. Proved: the result is the whole class if no three undirected edges of the CPDAG form a triangle, for all iteration orders. Missing: which CPDAGs with undirected triangles are safe for all orders."
  },
  {
   "property": "C241",
   "status": "proved",
   "theorems": [
    "Props.C241_erdos_ordered",
    "Props.C241_erdos_graph",
    "Props.C241_erdos_skeleton",
    "Props.C241_erdos_arc",
    "Props.C241_erdos_neighbors",
    "Props.C241_one_node",
    "Props.C241_density",
    "Props.C241_random_graph"
   ],
   "note": "The coins and the permutation are parameters of the model; independence and uniformity of numpy's generators are assumed in the spec (finite weighted sums). Probabilities are stated as real numbers."
  },
  {
   "property": "C242",
   "status": "proved",
   "theorems": [
    "Props.C242_adjustment",
    "Props.C242_parents",
    "Props.C242_effect"
   ],
   "note": "is_invariant of [j] for {i} given {i} | Z is equivalent to: for all parameters the regression coefficient of i is the total effect (Z without descendants of i); parents of i always work; total effects are what perfect interventions with equal noise show."
  },
  {
   "property": "C243",
   "status": "proved",
   "theorems": [
    "Props.C243_backdoor",
    "Props.C243_tables",
    "Props.C243_parents"
   ],
   "note": "The adjustment formula for probabilities and for the tables returned by the API (entries of tables that are positive but at most 1e-10 are excluded there, see C127); the parents satisfy both conditions."
  },
  {
   "property": "C244",
   "status": "proved",
   "theorems": [
    "Props.C244_possible_effects"
   ],
   "note": "Set equality between the estimates from the CPDAG and the effects in all equivalent models with the same covariance matrix."
  },
  {
   "property": "C245",
   "status": "proved",
   "theorems": [
    "Props.C245_shd_skeleton",
    "Props.C245_metric",
    "Props.C245_as_hashed"
   ],
   "note": ""
  },
  {
   "property": "C246",
   "status": "proved",
   "theorems": [
    "Props.C246_gaussian_interventional"
   ],
   "note": ""
  },
  {
   "property": "C247",
   "status": "proved",
   "theorems": [
    "Props.C247_gaussian",
    "Props.C247_tables"
   ],
   "note": ""
  },
  {
   "property": "C248",
   "status": "partial",
   "theorems": [
    "Props.C248_values",
    "Props.C248_keys_partial",
    "Props.C248_violated",
    "Props.C248_violated_removal"
   ],
   "note": "Violated: parents_of(x) for an object x that is no node inserts the key x; and a remove_node that fails after a rejected opposite arc leaves the key, the child and the arc of the removed node. Proved: the sets are right for all histories without opposite arcs, queries do not change what is said about nodes, and the keys are exactly the nodes if queries are only about nodes. Which nodes a failing topological_sort has visited is left open in the model."
  },
  {
   "property": "C249",
   "status": "partial",
   "theorems": [
    "Props.C249_partial",
    "Props.C249_violated"
   ],
   "note": "Proved for all interleavings unless the caller changes a set in the dictionary returned by the property neighbors; these sets are the object's own (C249_violated)."
  },
  {
   "property": "C25",
   "status": "partial",
   "theorems": [
    "Props.C25_to_dag_failure_partial",
    "Props.C25_violated"
   ],
   "note": "The code violates the property: failure is silent. Proved: always terminates with an acyclic graph inside the skeleton, covering all adjacencies iff a consistent extension exists."
  },
  {
   "property": "C250",
   "status": "partial",
   "theorems": [
    "Props.C250_partial",
    "Props.C250_violated"
   ],
   "note": "Proved if every node list is given to at most one constructor and left alone afterwards; the constructor keeps the caller's list, which add_node and remove_node change (C250_violated)."
  },
  {
   "property": "C251",
   "status": "proved",
   "theorems": [
    "Props.C251_to_dag",
    "Props.C251_added"
   ],
   "note": ""
  },
  {
   "property": "C252",
   "status": "proved",
   "theorems": [
    "Props.C252_values",
    "Props.C252_total",
    "Props.C252_caller"
   ],
   "note": ""
  },
  {
   "property": "C253",
   "status": "partial",
   "theorems": [
    "Props.C253_remove_node_partial",
    "Props.C253_new_partial",
    "Props.C253_violated"
   ],
   "note": "In all reachable states (with the keys of _adjacent) the node is removed with its edges; no exception if it has an edge. A node without edges raises KeyError after it has been removed, unless earlier calls left a key in _adjacent; on new objects and copies always."
  },
  {
   "property": "C254",
   "status": "partial",
   "theorems": [
    "Props.C254_values_partial",
    "Props.C254_violated"
   ],
   "note": "Holds as long as the caller changes only arrays that no GGM was given or has returned (simulation of the memory by values). Violated otherwise: changing the array returned by correlation changes partial_correlation, changing the array passed to the constructor changes covariance."
  },
  {
   "property": "C255",
   "status": "partial",
   "theorems": [
    "Props.C255_values_partial",
    "Props.C255_weight_mat_partial",
    "Props.C255_violated"
   ],
   "note": "GaussDAG.correlation returns its cached array: changing the array changes later partial correlations (C255_violated). Proved for all interleavings in which no array returned by correlation is changed; arrays returned by weight_mat, precision and covariance may be changed. The weight matrix the caller reads from a new object has the weights of the dictionary."
  },
  {
   "property": "C256",
   "status": "proved",
   "theorems": [
    "Props.C256_topological_sort",
    "Props.C256_mutators",
    "Props.C256_gauss"
   ],
   "note": ""
  },
  {
   "property": "C257",
   "status": "partial",
   "theorems": [
    "Props.C257_marginals_partial",
    "Props.C257_sample_partial",
    "Props.C257_dsep_partial",
    "Props.C257_violated"
   ],
   "note": "Holds after add_arc and add_arcs_from. Violated: after reverse_arc(0, 1) sample draws node 1 before its parent and reads the initial zeros, so that every row has probability zero; after remove_arc(0, 1) get_marginals raises an EinopsError."
  },
  {
   "property": "C258",
   "status": "partial",
   "theorems": [
    "Props.C258_set_arc_weights_partial",
    "Props.C258_add_arcs_from_partial",
    "Props.C258_unknown",
    "Props.C258_violated"
   ],
   "note": "Proved: the weights and arcs after both methods, for dictionaries between nodes of the graph, and KeyError without a change for unknown nodes. Violated: weights that close a directed cycle are accepted without an exception."
  },
  {
   "property": "C259",
   "status": "partial",
   "theorems": [
    "Props.C259_values_partial",
    "Props.C259_violated"
   ],
   "note": "Proved for callers that pass each dictionary to one constructor only and do not change it afterwards, nor one read off an object; copies and interventional DAGs never share the dictionary. Violated: the constructor keeps the caller's dictionary, so set_conditional on one object changes another built from the same dictionary. The arrays inside the dictionaries are values in the model."
  },
  {
   "property": "C26",
   "status": "proved",
   "theorems": [
    "Props.C26_all_dags"
   ],
   "note": "soundness and termination; that the list is the whole class is not claimed"
  },
  {
   "property": "C260",
   "status": "proved",
   "theorems": [
    "Props.C260_random_max",
    "Props.C260_empty"
   ],
   "note": "random.choice draws an index below the length; every index gives one best key and every best key has one index."
  },
  {
   "property": "C261",
   "status": "partial",
   "theorems": [
    "Props.C261_importance_sampling_partial",
    "Props.C261_impossible_partial",
    "Props.C261_violated"
   ],
   "note": "Proved for labels that are the columns, alphabets 0..k-1 and a given list of tuples, by the strong law of large numbers for the blocks of rows; entries for tuples of probability zero are nan for every draw. Violated otherwise: labels are used as columns (IndexError for a single node 1), and the default cond_values=None raises TypeError instead of using all tuples."
  },
  {
   "property": "C262",
   "status": "partial",
   "theorems": [
    "Props.C262_bias_partial",
    "Props.C262_variance_partial",
    "Props.C262_mean_partial",
    "Props.C262_index_partial",
    "Props.C262_violated"
   ],
   "note": "Proved if the labels are the positions. Violated otherwise: the label is used as the position, so with nodes [1, 0] the entry of the other node changes; labels beyond the number of nodes raise IndexError. set_node_mean sets the bias and then raises DeprecationWarning."
  },
  {
   "property": "C263",
   "status": "partial",
   "theorems": [
    "Props.C263_last_partial",
    "Props.C263_raises",
    "Props.C263_violated"
   ],
   "note": "Violated: the full position of a node is used as its column, so IndexError is raised unless the conditioning nodes are the last ones (C263_raises), and in that case every entry is nan (C263_last_partial). What holds is only that the call returns in this case."
  },
  {
   "property": "C264",
   "status": "partial",
   "theorems": [
    "Props.C264_fit_consistent_partial",
    "Props.C264_violated"
   ],
   "note": "Proved for labels that are the columns and alphabets 0..k-1, by the strong law of large numbers for the rows. Violated for other labels: sample has as many columns as nodes, and fit uses the labels as columns, so a single node with label 1 raises IndexError."
  },
  {
   "property": "C265",
   "status": "partial",
   "theorems": [
    "Props.C265_partial",
    "Props.C265_violated"
   ],
   "note": "Weights and biases converge with probability one, for any least squares solution; nodes are 0..n-1. The variances converge only after division by the number of samples; without it, as in the code, they grow without bound with probability one (same cause as C121)."
  },
  {
   "property": "C266",
   "status": "proved",
   "theorems": [
    "Props.C266_sample_moments"
   ],
   "note": "By the strong law of large numbers for the products of the noise; np.random.normal is modelled as independent normal random variables."
  },
  {
   "property": "C27",
   "status": "proved",
   "theorems": [
    "Props.C27_shd"
   ],
   "note": ""
  },
  {
   "property": "C28",
   "status": "proved",
   "theorems": [
    "Props.C28_pdag_shd"
   ],
   "note": ""
  },
  {
   "property": "C29",
   "status": "proved",
   "theorems": [
    "Props.C29_to_amat",
    "Props.C29_round_trip"
   ],
   "note": ""
  },
  {
   "property": "C30",
   "status": "partial",
   "theorems": [
    "Props.C30_round_trip_partial",
    "Props.C30_violated"
   ],
   "note": "The code violates the property for source_axis=1 (pdag.py:96); proved for source_axis=0."
  },
  {
   "property": "C31",
   "status": "proved",
   "theorems": [
    "Props.C31_amat_round_trip"
   ],
   "note": ""
  },
  {
   "property": "C32",
   "status": "proved",
   "theorems": [
    "Props.C32_rename"
   ],
   "note": ""
  },
  {
   "property": "C33",
   "status": "proved",
   "theorems": [
    "Props.C33_ancestral_subgraph"
   ],
   "note": ""
  },
  {
   "property": "C34",
   "status": "proved",
   "theorems": [
    "Props.C34_moral"
   ],
   "note": ""
  },
  {
   "property": "C35",
   "status": "proved",
   "theorems": [
    "Props.C35_is_imap"
   ],
   "note": ""
  },
  {
   "property": "C36",
   "status": "proved",
   "theorems": [
    "Props.C36_is_minimal_imap"
   ],
   "note": ""
  },
  {
   "property": "C37",
   "status": "proved",
   "theorems": [
    "Props.C37_msep"
   ],
   "note": ""
  },
  {
   "property": "C38",
   "status": "proved",
   "theorems": [
    "Props.C38_msep_dsep"
   ],
   "note": ""
  },
  {
   "property": "C39",
   "status": "proved",
   "theorems": [
    "Props.C39_msep_from_given"
   ],
   "note": ""
  },
  {
   "property": "C40",
   "status": "partial",
   "theorems": [
    "Props.C40_violated",
    "Props.C40_violated_directed",
    "Props.C40_mutators_partial"
   ],
   "note": "add_bidirected and add_directed can leave a graph that is not ancestral; the partial theorem says exactly what each mutator preserves."
  },
  {
   "property": "C41",
   "status": "proved",
   "theorems": [
    "Props.C41_views",
    "Props.C41_constructor",
    "Props.C41_total",
    "Props.C41_effects",
    "Props.C41_remove_node"
   ],
   "note": ""
  },
  {
   "property": "C42",
   "status": "proved",
   "theorems": [
    "Props.C42_districts"
   ],
   "note": ""
  },
  {
   "property": "C43",
   "status": "partial",
   "theorems": [
    "Props.C43_violated",
    "Props.C43_violated_order",
    "Props.C43_pairwise_markov_partial"
   ],
   "note": "Violated by the code: undirected edges are ignored and the precedence of - and | can leave j in the set. Proved for maximal ancestral graphs without undirected edges when j is not an ancestor of i."
  },
  {
   "property": "C44",
   "status": "proved",
   "theorems": [
    "Props.C44_erdos",
    "Props.C44_erdos_unique",
    "Props.C44_erdos_all",
    "Props.C44_random_graph"
   ],
   "note": "The random draws are arguments. random_graph_model is assumed to return a graph without loops on 0..n-1."
  },
  {
   "property": "C45",
   "status": "proved",
   "theorems": [
    "Props.C45_to_complete_pdag"
   ],
   "note": "the full statement, plus: no rule applies to an edge of the result"
  },
  {
   "property": "C46",
   "status": "proved",
   "theorems": [
    "Props.C46_interventional_cpdag"
   ],
   "note": ""
  },
  {
   "property": "C47",
   "status": "proved",
   "theorems": [
    "Props.C47_covered_forest"
   ],
   "note": "networkx's bipartiteness test is represented by the mathematical notion (Mathlib IsBipartite)."
  },
  {
   "property": "C48",
   "status": "proved",
   "theorems": [
    "Props.C48_imset"
   ],
   "note": "Markov equivalence is stated as same skeleton and v-structures; C18 links it to dsep. The final conversion of keys to tuples is not modelled."
  },
  {
   "property": "C49",
   "status": "partial",
   "theorems": [
    "Props.C49_views_partial",
    "Props.C49_nodes_partial",
    "Props.C49_violated"
   ],
   "note": "The code violates the last clause: add_edge does not add its endpoints to the nodes. Proved: the other clauses in full, and the last one when add_edge is only called on nodes of the graph."
  },
  {
   "property": "C50",
   "status": "proved",
   "theorems": [
    "Props.C50_inverse",
    "Props.C50_covariance"
   ],
   "note": "exact arithmetic; the noise terms of sample() are uncorrelated square integrable random variables; node list 0..n-1 for the second theorem"
  },
  {
   "property": "C51",
   "status": "partial",
   "theorems": [
    "Props.C51_violated",
    "Props.C51_stale",
    "Props.C51_first_read_partial"
   ],
   "note": "violated: the matrices are cached by the first read and never invalidated; holds for the first read after any updates"
  },
  {
   "property": "C52",
   "status": "partial",
   "theorems": [
    "Props.C52_violated",
    "Props.C52_means_partial",
    "Props.C52_expectation_partial"
   ],
   "note": "violated when an arc points to a smaller label; holds when all arcs point to larger labels"
  },
  {
   "property": "C53",
   "status": "proved",
   "theorems": [
    "Props.C53_set_arc_weight",
    "Props.C53_terminates",
    "Props.C53_history"
   ],
   "note": ""
  },
  {
   "property": "C54",
   "status": "proved",
   "theorems": [
    "Props.C54_powerset",
    "Props.C54_powerset_predicate"
   ],
   "note": ""
  },
  {
   "property": "C55",
   "status": "proved",
   "theorems": [
    "Props.C55_possible_parents"
   ],
   "note": ""
  },
  {
   "property": "C56",
   "status": "proved",
   "theorems": [
    "Props.C56_chain_components"
   ],
   "note": ""
  },
  {
   "property": "C57",
   "status": "proved",
   "theorems": [
    "Props.C57_sample",
    "Props.C57_cam",
    "Props.C57_missing",
    "Props.C57_gauss"
   ],
   "note": "GaussDAG for the node list 0..n-1; see C78 for other node lists"
  },
  {
   "property": "C58",
   "status": "proved",
   "theorems": [
    "Props.C58_extremal"
   ],
   "note": ""
  },
  {
   "property": "C59",
   "status": "partial",
   "theorems": [
    "Props.C59_mec_size_partial",
    "Props.C59_violated",
    "Props.C59_mec_size_triangle_free_partial",
    "Props.C59_mec_size_connected_partial",
    "Props.C59_violated_empty"
   ],
   "note": "The full statement is refuted: mec_size is wrong for a triangle plus an isolated node, and for the graph without nodes. Proved: unless one of the formulas for graphs without directed arcs applies, the result lies between one and the size of the class. For graphs with a connected skeleton and at least one node it is the size of the class if no three undirected edges form a triangle, and if one of the three formulas applies. For unconnected graphs it is the size of the class if no three undirected edges form a triangle and no formula applies."
  },
  {
   "property": "C60",
   "status": "partial",
   "theorems": [
    "Props.C60_skeleton",
    "Props.C60_confusion_partial",
    "Props.C60_violated"
   ],
   "note": "confusion_matrix adds false_negative_arcs instead of false_positive_arcs to num_false_positives, so counts can even become negative. confusion_matrix_skeleton is right in full; the sets of confusion_matrix are characterised exactly, its counts are right when no arc is compelled in either graph."
  },
  {
   "property": "C61",
   "status": "partial",
   "theorems": [
    "Props.C61_nodes_between_partial",
    "Props.C61_edges_between_partial",
    "Props.C61_violated",
    "Props.C61_violated_arc"
   ],
   "note": "edges_between only finds an arc if the iteration over the set of nodes meets its tail first, and nothing is returned if the only paths are single arcs. The exact behaviour is proved."
  },
  {
   "property": "C62",
   "status": "proved",
   "theorems": [
    "Props.C62_resolved_sinks"
   ],
   "note": ""
  },
  {
   "property": "C63",
   "status": "proved",
   "theorems": [
    "Props.C63_apply_edge_operation"
   ],
   "note": ""
  },
  {
   "property": "C64",
   "status": "proved",
   "theorems": [
    "Props.C64_marginal_mag"
   ],
   "note": "All observed sets, not only disjoint ones."
  },
  {
   "property": "C65",
   "status": "proved",
   "theorems": [
    "Props.C65_interventional_equivalence"
   ],
   "note": ""
  },
  {
   "property": "C66",
   "status": "proved",
   "theorems": [
    "Props.C66_cpdag_new"
   ],
   "note": ""
  },
  {
   "property": "C67",
   "status": "proved",
   "theorems": [
    "Props.C67_pdag_interventional_cpdag"
   ],
   "note": ""
  },
  {
   "property": "C68",
   "status": "proved",
   "theorems": [
    "Props.C68_cpdag_extensions"
   ],
   "note": ""
  },
  {
   "property": "C69",
   "status": "proved",
   "theorems": [
    "Props.C69_cpdag_round_trip"
   ],
   "note": ""
  },
  {
   "property": "C70",
   "status": "proved",
   "theorems": [
    "Props.C70_undirected_effects"
   ],
   "note": ""
  },
  {
   "property": "C71",
   "status": "proved",
   "theorems": [
    "Props.C71_dataframe_round_trip"
   ],
   "note": ""
  },
  {
   "property": "C72",
   "status": "proved",
   "theorems": [
    "Props.C72_copy",
    "Props.C72_induced_subgraph",
    "Props.C72_induced_ancestral"
   ],
   "note": ""
  },
  {
   "property": "C73",
   "status": "partial",
   "theorems": [
    "Props.C73_violated",
    "Props.C73_reachability_partial"
   ],
   "note": "Violated by the code: descendants_of looks the excluded arcs up reversed and sets of nodes ignore them. The rest is proved."
  },
  {
   "property": "C74",
   "status": "proved",
   "theorems": [
    "Props.C74_dicts"
   ],
   "note": ""
  },
  {
   "property": "C75",
   "status": "proved",
   "theorems": [
    "Props.C75_to_maximal",
    "Props.C75_to_maximal_old",
    "Props.C75_is_maximal"
   ],
   "note": ""
  },
  {
   "property": "C76",
   "status": "proved",
   "theorems": [
    "Props.C76_interventional",
    "Props.C76_nondescendants"
   ],
   "note": ""
  },
  {
   "property": "C77",
   "status": "partial",
   "theorems": [
    "Props.C77_violated",
    "Props.C77_constructor_partial"
   ],
   "note": "violated: cyclic weights are accepted; everything else holds"
  },
  {
   "property": "C78",
   "status": "partial",
   "theorems": [
    "Props.C78_violated",
    "Props.C78_sample_partial"
   ],
   "note": "violated for the node list [1, 0]; holds if every node with parents is labelled by its position"
  },
  {
   "property": "C79",
   "status": "proved",
   "theorems": [
    "Props.C79_counterfactuals"
   ],
   "note": ""
  },
  {
   "property": "C80",
   "status": "proved",
   "theorems": [
    "Props.C80_effects",
    "Props.C80_zero"
   ],
   "note": ""
  },
  {
   "property": "C81",
   "status": "partial",
   "theorems": [
    "Props.C81_confounders_partial",
    "Props.C81_violated"
   ],
   "note": "Violated: nodes without arcs and with label >= n are missing, because DAG is called with nodes=range(nnodes)."
  },
  {
   "property": "C82",
   "status": "partial",
   "theorems": [
    "Props.C82_rand_weights_partial",
    "Props.C82_violated"
   ],
   "note": "Violated: KeyError for labels other than 0..n-1, e.g. on the example of the docstring."
  },
  {
   "property": "C83",
   "status": "proved",
   "theorems": [
    "Props.C83_edges",
    "Props.C83_old"
   ],
   "note": ""
  },
  {
   "property": "C84",
   "status": "proved",
   "theorems": [
    "Props.C84_relabel",
    "Props.C84_default"
   ],
   "note": "relabel given as a function on the nodes; a dictionary lacking some node is not modelled. relabel together with new=False is not modelled."
  },
  {
   "property": "C85",
   "status": "proved",
   "theorems": [
    "Props.C85_between"
   ],
   "note": ""
  },
  {
   "property": "C86",
   "status": "proved",
   "theorems": [
    "Props.C86_chickering_sequence"
   ],
   "note": ""
  },
  {
   "property": "C87",
   "status": "proved",
   "theorems": [
    "Props.C87_moves"
   ],
   "note": ""
  },
  {
   "property": "C88",
   "status": "proved",
   "theorems": [
    "Props.C88_union"
   ],
   "note": ""
  },
  {
   "property": "C89",
   "status": "partial",
   "theorems": [
    "Props.C89_optimal_partial",
    "Props.C89_none",
    "Props.C89_violated"
   ],
   "note": "violated: when the CPDAG has no undirected edge (e.g. 0->2<-1) the function returns None instead of the empty set; proved in all other cases"
  },
  {
   "property": "C90",
   "status": "partial",
   "theorems": [
    "Props.C90_atomic_verification_partial",
    "Props.C90_covers",
    "Props.C90_violated"
   ],
   "note": "violated: the orientations known from the cpdag argument are ignored (the result of set.difference is discarded), so the set returned is not smallest for a cpdag with known orientations; proved smallest without earlier targets, and verifying in all cases"
  },
  {
   "property": "C91",
   "status": "partial",
   "theorems": [
    "Props.C91_greedy_partial",
    "Props.C91_violated"
   ],
   "note": "violated for num_interventions=0, where the recursion continues until everything is oriented; proved for all positive numbers"
  },
  {
   "property": "C92",
   "status": "proved",
   "theorems": [
    "Props.C92_greedy_guarantee"
   ],
   "note": ""
  },
  {
   "property": "C93",
   "status": "proved",
   "theorems": [
    "Props.C93_greedy_fully"
   ],
   "note": ""
  },
  {
   "property": "C94",
   "status": "proved",
   "theorems": [
    "Props.C94_discriminating_paths",
    "Props.C94_vstructures"
   ],
   "note": "Keys and labels of the dictionary are exactly the discriminating paths; termination for all orders. `sorted` on two nodes is modelled as a function of the two-element set."
  },
  {
   "property": "C95",
   "status": "proved",
   "theorems": [
    "Props.C95_markov_equivalent"
   ],
   "note": "Full Spirtes-Richardson theorem proved from the definitions."
  },
  {
   "property": "C96",
   "status": "partial",
   "theorems": [
    "Props.C96_violated",
    "Props.C96_partial"
   ],
   "note": "Violated: for graphs that are not maximal both wrong answers occur. Proved: correct after to_maximal() on both graphs."
  },
  {
   "property": "C97",
   "status": "proved",
   "theorems": [
    "Props.C97_legitimate_mark_changes",
    "Props.C97_undirected"
   ],
   "note": ""
  },
  {
   "property": "C98",
   "status": "proved",
   "theorems": [
    "Props.C98_loose_mark_changes",
    "Props.C98_strict_subset"
   ],
   "note": ""
  },
  {
   "property": "C99",
   "status": "proved",
   "theorems": [
    "Props.C99_get_all_mec",
    "Props.C99_connected"
   ],
   "note": "The connectivity theorem of Zhang and Spirtes (2005) is proved from scratch."
  }
 ]
}

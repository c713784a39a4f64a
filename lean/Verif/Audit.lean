import Verif.Props.AG
import Verif.Props.AGBlanket
import Verif.Props.AGDistance
import Verif.Props.AGEquiv
import Verif.Props.AGImap
import Verif.Props.AGImap2
import Verif.Props.AGKeys
import Verif.Props.AGMarks
import Verif.Props.AGQueries
import Verif.Props.AGTriples
import Verif.Props.AdditiveBasis
import Verif.Props.Adjust
import Verif.Props.AllDags
import Verif.Props.AllDagsAll
import Verif.Props.Amat
import Verif.Props.Between
import Verif.Props.CPDAG
import Verif.Props.CamMean
import Verif.Props.Chickering
import Verif.Props.CliqueDesign
import Verif.Props.CliqueTree
import Verif.Props.Complete
import Verif.Props.Components
import Verif.Props.Confusion
import Verif.Props.CoreUtils
import Verif.Props.Covered
import Verif.Props.Cyclic
import Verif.Props.DAGHeap
import Verif.Props.DAGKeys
import Verif.Props.DAGSimple
import Verif.Props.DSep
import Verif.Props.Design
import Verif.Props.DirectEffect
import Verif.Props.Discrete
import Verif.Props.DiscreteBackdoor
import Verif.Props.DiscreteDraws
import Verif.Props.DiscreteFaithful
import Verif.Props.DiscreteFit
import Verif.Props.DiscreteHeap
import Verif.Props.DiscreteInherited
import Verif.Props.DiscreteInvariant
import Verif.Props.DiscreteLearn
import Verif.Props.DiscreteMarginalDag
import Verif.Props.DiscreteMarkov
import Verif.Props.DiscretePgmpy
import Verif.Props.DiscreteSample
import Verif.Props.DiscreteTorch
import Verif.Props.DiscreteVariation
import Verif.Props.Experiments
import Verif.Props.ExtendedCov
import Verif.Props.FitConsistent
import Verif.Props.GGM
import Verif.Props.GGMHeap
import Verif.Props.GGMToDag
import Verif.Props.Gauss
import Verif.Props.GaussArcs
import Verif.Props.GaussCache
import Verif.Props.GaussExperiments
import Verif.Props.GaussFactor
import Verif.Props.GaussFit
import Verif.Props.GaussFitLimit
import Verif.Props.GaussHeap
import Verif.Props.GaussImap
import Verif.Props.GaussIv
import Verif.Props.GaussMisc
import Verif.Props.GaussMoments
import Verif.Props.GaussMore
import Verif.Props.GaussPdf
import Verif.Props.GaussSetters
import Verif.Props.HiddenTables
import Verif.Props.IMap
import Verif.Props.Identified
import Verif.Props.Importance
import Verif.Props.Imset
import Verif.Props.Influence
import Verif.Props.Interventions
import Verif.Props.MSep
import Verif.Props.Marginal
import Verif.Props.Maximal
import Verif.Props.MecFormula
import Verif.Props.MecSize
import Verif.Props.Metric
import Verif.Props.Moral
import Verif.Props.Mutators
import Verif.Props.Orders
import Verif.Props.PAG
import Verif.Props.PDAGMore
import Verif.Props.PDAGRest
import Verif.Props.Pgm
import Verif.Props.PossibleEffects
import Verif.Props.Rand
import Verif.Props.RandDiscrete
import Verif.Props.RandGauss
import Verif.Props.RandomGraph
import Verif.Props.RandomMax
import Verif.Props.Reach
import Verif.Props.Rename
import Verif.Props.Sample
import Verif.Props.SampleMoments
import Verif.Props.Sampling
import Verif.Props.SemiMarkovian
import Verif.Props.SortTotal
import Verif.Props.ToDag
import Verif.Props.ToDagEvery
import Verif.Props.Topo
import Verif.Props.UG
import Verif.Props.UGConvert
import Verif.Props.UGHeap

/-! Axioms used by every property theorem (expected: at most `propext`, `Classical.choice`, `Quot.sound`). -/

#print axioms Props.C01_topological_sort
#print axioms Props.C02_cycle_error
#print axioms Props.C03_add_arc
#print axioms Props.C04_views_partial
#print axioms Props.C04_violated
#print axioms Props.C05_constructor
#print axioms Props.C06_add_arcs_from_partial
#print axioms Props.C06_violated
#print axioms Props.C07_reverse_arc_partial
#print axioms Props.C07_violated
#print axioms Props.C08_remove_node
#print axioms Props.C09_reachability
#print axioms Props.C100_listed_once_partial
#print axioms Props.C100_violated
#print axioms Props.C101_discriminating_triples
#print axioms Props.C102_agrees
#print axioms Props.C102_fast_markov_equivalent
#print axioms Props.C103_is_imap
#print axioms Props.C104_is_imap_self_partial
#print axioms Props.C104_violated
#print axioms Props.C105_is_minimal_imap
#print axioms Props.C106_is_minimal_imap_partial
#print axioms Props.C106_violated
#print axioms Props.C107_marginal_precision
#print axioms Props.C108_partial_correlation
#print axioms Props.C109_dsep
#print axioms Props.C109_markov
#print axioms Props.C10_dicts
#print axioms Props.C110_best
#print axioms Props.C110_structural
#print axioms Props.C111_bias_partial
#print axioms Props.C111_violated
#print axioms Props.C112_asymmetric
#print axioms Props.C112_from_precision_partial
#print axioms Props.C112_rejects
#print axioms Props.C112_violated
#print axioms Props.C113_from_covariance_partial
#print axioms Props.C113_singular
#print axioms Props.C113_violated
#print axioms Props.C114_from_amat_partial
#print axioms Props.C114_violated
#print axioms Props.C115_iff
#print axioms Props.C115_logpdf_partial
#print axioms Props.C115_violated
#print axioms Props.C116_fast_logpdf_partial
#print axioms Props.C116_iff
#print axioms Props.C116_log_probability_partial
#print axioms Props.C116_violated
#print axioms Props.C117_agree
#print axioms Props.C118_general
#print axioms Props.C118_perfect
#print axioms Props.C119_interventions_partial
#print axioms Props.C119_violated
#print axioms Props.C11_dsep
#print axioms Props.C120_sample_interventional
#print axioms Props.C120_soft_partial
#print axioms Props.C120_violated
#print axioms Props.C121_rescaled_partial
#print axioms Props.C121_violated
#print axioms Props.C121_weights_partial
#print axioms Props.C122_copy_partial
#print axioms Props.C122_violated
#print axioms Props.C122_weights_partial
#print axioms Props.C123_interventional_dag
#print axioms Props.C124_expectation_partial
#print axioms Props.C124_means_partial
#print axioms Props.C124_violated
#print axioms Props.C125_soft_partial
#print axioms Props.C125_violated
#print axioms Props.C126_empty_partial
#print axioms Props.C126_raises
#print axioms Props.C126_violated
#print axioms Props.C127_log_partial
#print axioms Props.C127_marginal_partial
#print axioms Props.C127_marginals_partial
#print axioms Props.C127_violated
#print axioms Props.C128_mean_and_variance
#print axioms Props.C129_marginals_new_partial
#print axioms Props.C129_raises
#print axioms Props.C129_violated
#print axioms Props.C12_dsep_symm
#print axioms Props.C130_conditional
#print axioms Props.C130_raises
#print axioms Props.C131_conditional_partial
#print axioms Props.C131_raises
#print axioms Props.C131_violated
#print axioms Props.C132_sample_partial
#print axioms Props.C132_violated
#print axioms Props.C133_violated
#print axioms Props.C133_weighted_samples_partial
#print axioms Props.C133_weights_partial
#print axioms Props.C134_sample_interventional_partial
#print axioms Props.C134_violated
#print axioms Props.C135_hard_interventional_dag
#print axioms Props.C136_marginal_dag_partial
#print axioms Props.C136_marginal_dag_proper
#print axioms Props.C136_marginal_dag_relabel_partial
#print axioms Props.C136_violated
#print axioms Props.C137_fit_mle
#print axioms Props.C138_fit_alphabets_partial
#print axioms Props.C138_violated
#print axioms Props.C139_fit_add_one
#print axioms Props.C13_graphoid
#print axioms Props.C140_edges
#print axioms Props.C140_global_markov
#print axioms Props.C140_pairwise_markov
#print axioms Props.C141_partial_correlation
#print axioms Props.C142_from_adjacency
#print axioms Props.C142_from_covariance
#print axioms Props.C143_rand_discrete_partial
#print axioms Props.C143_violated
#print axioms Props.C144_noisy_or_partial
#print axioms Props.C144_violated
#print axioms Props.C145_unif_away_original_partial
#print axioms Props.C145_unif_away_zero
#print axioms Props.C145_violated
#print axioms Props.C146_rand_normal_wishart
#print axioms Props.C147_function
#print axioms Props.C147_graph_partial
#print axioms Props.C147_violated
#print axioms Props.C148_alter_weights_partial
#print axioms Props.C148_too_many
#print axioms Props.C148_violated
#print axioms Props.C149_c_components
#print axioms Props.C149_constructor
#print axioms Props.C14_dsep_from_given
#print axioms Props.C150_topological_sort
#print axioms Props.C151_collected_partial
#print axioms Props.C151_violated
#print axioms Props.C152_matching_partial
#print axioms Props.C152_violated
#print axioms Props.C153_all_others_partial
#print axioms Props.C153_conditional_partial
#print axioms Props.C153_marginalize_partial
#print axioms Props.C153_product_partial
#print axioms Props.C153_violated
#print axioms Props.C153_violated_product
#print axioms Props.C154_induced_subgraph_partial
#print axioms Props.C154_mutilated_graph_partial
#print axioms Props.C154_violated
#print axioms Props.C155_cpdag
#print axioms Props.C155_possible_parents
#print axioms Props.C156_assign_parents
#print axioms Props.C156_key_error
#print axioms Props.C156_unchecked
#print axioms Props.C157_cpdag_new_partial
#print axioms Props.C157_violated
#print axioms Props.C158_removals_partial
#print axioms Props.C158_remove_all_arcs_partial
#print axioms Props.C158_remove_from_partial
#print axioms Props.C158_violated
#print axioms Props.C159_remove_node_partial
#print axioms Props.C159_violated
#print axioms Props.C15_local_markov
#print axioms Props.C160_violated
#print axioms Props.C160_vstructs_partial
#print axioms Props.C161_influence_partial
#print axioms Props.C161_unique
#print axioms Props.C161_violated
#print axioms Props.C162_both_raise
#print axioms Props.C163_unseen
#print axioms Props.C164_full_raises
#print axioms Props.C164_no_samples
#print axioms Props.C165_directed_clique_tree
#print axioms Props.C165_forest
#print axioms Props.C166_contracted_partial
#print axioms Props.C166_violated
#print axioms Props.C167_residuals_partial
#print axioms Props.C167_violated
#print axioms Props.C168_residual_essential_partial
#print axioms Props.C168_violated
#print axioms Props.C169_both_ways_partial
#print axioms Props.C169_optimal_new_partial
#print axioms Props.C169_violated
#print axioms Props.C16_markov_blanket
#print axioms Props.C170_dictionary
#print axioms Props.C170_markov_blanket_partial
#print axioms Props.C170_violated
#print axioms Props.C171_from_amat
#print axioms Props.C171_round_trip
#print axioms Props.C171_to_amat_partial
#print axioms Props.C171_violated
#print axioms Props.C172_copy_partial
#print axioms Props.C172_rename
#print axioms Props.C172_rename_back
#print axioms Props.C172_violated
#print axioms Props.C173_bulk
#print axioms Props.C174_diagonal
#print axioms Props.C174_graph_round_trip
#print axioms Props.C174_matrix_round_trip
#print axioms Props.C174_normal_form
#print axioms Props.C175_shd_skeleton
#print axioms Props.C176_degrees
#print axioms Props.C176_sparsity
#print axioms Props.C176_views_of_sets
#print axioms Props.C177_triples_partial
#print axioms Props.C177_violated
#print axioms Props.C178_from_dataframe
#print axioms Props.C178_round_trip
#print axioms Props.C179_cpdag
#print axioms Props.C179_interventional
#print axioms Props.C17_is_invariant
#print axioms Props.C180_clique_size_partial
#print axioms Props.C180_cpdag_partial
#print axioms Props.C180_max_cliques_partial
#print axioms Props.C180_recursion_violated
#print axioms Props.C180_violated
#print axioms Props.C181_degrees
#print axioms Props.C182_rename_partial
#print axioms Props.C182_violated
#print axioms Props.C183_dag
#print axioms Props.C183_pdag_partial
#print axioms Props.C183_undirected
#print axioms Props.C183_violated
#print axioms Props.C184_einsum
#print axioms Props.C184_log
#print axioms Props.C184_marginals
#print axioms Props.C184_no_nodes
#print axioms Props.C185_conditional_mean
#print axioms Props.C185_predict
#print axioms Props.C185_unknown
#print axioms Props.C186_forgets
#print axioms Props.C186_normalize_partial
#print axioms Props.C186_raises
#print axioms Props.C186_violated
#print axioms Props.C187_round_partial
#print axioms Props.C187_violated
#print axioms Props.C188_remove_node_partial
#print axioms Props.C188_stale
#print axioms Props.C188_violated
#print axioms Props.C189_add_node_partial
#print axioms Props.C189_violated
#print axioms Props.C18_markov_equivalent
#print axioms Props.C190_cholesky_partial
#print axioms Props.C190_rejects
#print axioms Props.C190_violated
#print axioms Props.C191_conditional_mean_partial
#print axioms Props.C191_empty
#print axioms Props.C191_equations
#print axioms Props.C191_invalid
#print axioms Props.C191_missing
#print axioms Props.C191_violated
#print axioms Props.C191_violated_root
#print axioms Props.C192_binary
#print axioms Props.C192_multinomial
#print axioms Props.C193_pdf_partial
#print axioms Props.C193_violated
#print axioms Props.C193_violated_multinomial
#print axioms Props.C194_scaling_partial
#print axioms Props.C194_violated
#print axioms Props.C194_violated_order
#print axioms Props.C195_shift_partial
#print axioms Props.C195_violated
#print axioms Props.C196_cycles_accepted
#print axioms Props.C196_total
#print axioms Props.C196_views
#print axioms Props.C197_add_directed_partial
#print axioms Props.C197_violated
#print axioms Props.C198_msep
#print axioms Props.C199_violated
#print axioms Props.C199_vstructures_partial
#print axioms Props.C19_cpdag
#print axioms Props.C200_built_partial
#print axioms Props.C200_discriminating_paths_partial
#print axioms Props.C200_violated
#print axioms Props.C201_markov_equivalent_partial
#print axioms Props.C201_violated
#print axioms Props.C201_violated_keys
#print axioms Props.C202_legitimate_mark_changes_partial
#print axioms Props.C202_undirected_partial
#print axioms Props.C202_violated
#print axioms Props.C203_amat_round_trip
#print axioms Props.C203_copy
#print axioms Props.C203_eq
#print axioms Props.C204_ancestors_of
#print axioms Props.C204_to_maximal
#print axioms Props.C205_calibrated
#print axioms Props.C206_replay_partial
#print axioms Props.C206_sample_partial
#print axioms Props.C206_violated
#print axioms Props.C207_default
#print axioms Props.C207_missing
#print axioms Props.C207_returns_partial
#print axioms Props.C207_violated
#print axioms Props.C208_to_pgm
#print axioms Props.C209_from_pgm_partial
#print axioms Props.C209_reread
#print axioms Props.C209_round_trip_partial
#print axioms Props.C209_violated
#print axioms Props.C20_cpdag_eq
#print axioms Props.C210_default
#print axioms Props.C210_fit_learned_partial
#print axioms Props.C210_violated
#print axioms Props.C211_negative
#print axioms Props.C211_predict_partial
#print axioms Props.C211_roots
#print axioms Props.C211_violated
#print axioms Props.C212_extended_cov
#print axioms Props.C212_regression
#print axioms Props.C213_conditional_partial
#print axioms Props.C213_raises
#print axioms Props.C213_violated
#print axioms Props.C214_conditionals_partial
#print axioms Props.C214_raises
#print axioms Props.C214_violated
#print axioms Props.C215_agree
#print axioms Props.C215_is_minimal_imap2
#print axioms Props.C215_not_imap
#print axioms Props.C216_minimal_partial
#print axioms Props.C216_not_imap
#print axioms Props.C216_raises
#print axioms Props.C216_violated
#print axioms Props.C217_raises
#print axioms Props.C217_resolved_partial
#print axioms Props.C217_violated
#print axioms Props.C218_any_order_partial
#print axioms Props.C218_natural_order_partial
#print axioms Props.C218_violated
#print axioms Props.C218_violated_keyword
#print axioms Props.C219_imset_markov_partial
#print axioms Props.C219_violated
#print axioms Props.C21_reversible_arcs
#print axioms Props.C220_conditional_partial
#print axioms Props.C220_marginals_partial
#print axioms Props.C220_violated
#print axioms Props.C221_refit
#print axioms Props.C221_represents
#print axioms Props.C222_hard
#print axioms Props.C222_tables
#print axioms Props.C223_covariance
#print axioms Props.C223_is_imap
#print axioms Props.C223_realised
#print axioms Props.C224_faithful
#print axioms Props.C225_gaussian
#print axioms Props.C226_discrete
#print axioms Props.C227_faithful
#print axioms Props.C228_is_imap
#print axioms Props.C229_markov_equivalent
#print axioms Props.C22_covered_reversals
#print axioms Props.C230_is_invariant
#print axioms Props.C231_missing
#print axioms Props.C231_order_dependent
#print axioms Props.C231_orders
#print axioms Props.C231_topological_sort
#print axioms Props.C232_chickering_distance
#print axioms Props.C233_interventional
#print axioms Props.C234_perfect_interventions
#print axioms Props.C235_faithful
#print axioms Props.C235_msep
#print axioms Props.C236_is_imap
#print axioms Props.C237_markov_equivalent
#print axioms Props.C238_dsep
#print axioms Props.C238_marginal_mag
#print axioms Props.C239_to_dag_every
#print axioms Props.C239_to_dag_reverse_order
#print axioms Props.C23_to_dag
#print axioms Props.C240_all_dags_partial
#print axioms Props.C240_violated
#print axioms Props.C241_density
#print axioms Props.C241_erdos_arc
#print axioms Props.C241_erdos_graph
#print axioms Props.C241_erdos_neighbors
#print axioms Props.C241_erdos_ordered
#print axioms Props.C241_erdos_skeleton
#print axioms Props.C241_one_node
#print axioms Props.C241_random_graph
#print axioms Props.C242_adjustment
#print axioms Props.C242_effect
#print axioms Props.C242_parents
#print axioms Props.C243_backdoor
#print axioms Props.C243_parents
#print axioms Props.C243_tables
#print axioms Props.C244_possible_effects
#print axioms Props.C245_as_hashed
#print axioms Props.C245_metric
#print axioms Props.C245_shd_skeleton
#print axioms Props.C246_gaussian_interventional
#print axioms Props.C247_gaussian
#print axioms Props.C247_tables
#print axioms Props.C248_keys_partial
#print axioms Props.C248_values
#print axioms Props.C248_violated
#print axioms Props.C248_violated_removal
#print axioms Props.C249_partial
#print axioms Props.C249_violated
#print axioms Props.C24_to_dag_nodes_partial
#print axioms Props.C24_violated
#print axioms Props.C250_partial
#print axioms Props.C250_violated
#print axioms Props.C251_added
#print axioms Props.C251_to_dag
#print axioms Props.C252_caller
#print axioms Props.C252_total
#print axioms Props.C252_values
#print axioms Props.C253_new_partial
#print axioms Props.C253_remove_node_partial
#print axioms Props.C253_violated
#print axioms Props.C254_values_partial
#print axioms Props.C254_violated
#print axioms Props.C255_values_partial
#print axioms Props.C255_violated
#print axioms Props.C255_weight_mat_partial
#print axioms Props.C256_gauss
#print axioms Props.C256_mutators
#print axioms Props.C256_topological_sort
#print axioms Props.C257_dsep_partial
#print axioms Props.C257_marginals_partial
#print axioms Props.C257_sample_partial
#print axioms Props.C257_violated
#print axioms Props.C258_add_arcs_from_partial
#print axioms Props.C258_set_arc_weights_partial
#print axioms Props.C258_unknown
#print axioms Props.C258_violated
#print axioms Props.C259_values_partial
#print axioms Props.C259_violated
#print axioms Props.C25_to_dag_failure_partial
#print axioms Props.C25_violated
#print axioms Props.C260_empty
#print axioms Props.C260_random_max
#print axioms Props.C261_importance_sampling_partial
#print axioms Props.C261_impossible_partial
#print axioms Props.C261_violated
#print axioms Props.C262_bias_partial
#print axioms Props.C262_index_partial
#print axioms Props.C262_mean_partial
#print axioms Props.C262_variance_partial
#print axioms Props.C262_violated
#print axioms Props.C263_last_partial
#print axioms Props.C263_raises
#print axioms Props.C263_violated
#print axioms Props.C264_fit_consistent_partial
#print axioms Props.C264_violated
#print axioms Props.C265_partial
#print axioms Props.C265_violated
#print axioms Props.C266_sample_moments
#print axioms Props.C26_all_dags
#print axioms Props.C27_shd
#print axioms Props.C28_pdag_shd
#print axioms Props.C29_round_trip
#print axioms Props.C29_to_amat
#print axioms Props.C30_round_trip_partial
#print axioms Props.C30_violated
#print axioms Props.C31_amat_round_trip
#print axioms Props.C32_rename
#print axioms Props.C33_ancestral_subgraph
#print axioms Props.C34_moral
#print axioms Props.C35_is_imap
#print axioms Props.C36_is_minimal_imap
#print axioms Props.C37_msep
#print axioms Props.C38_msep_dsep
#print axioms Props.C39_msep_from_given
#print axioms Props.C40_mutators_partial
#print axioms Props.C40_violated
#print axioms Props.C40_violated_directed
#print axioms Props.C41_constructor
#print axioms Props.C41_effects
#print axioms Props.C41_remove_node
#print axioms Props.C41_total
#print axioms Props.C41_views
#print axioms Props.C42_districts
#print axioms Props.C43_pairwise_markov_partial
#print axioms Props.C43_violated
#print axioms Props.C43_violated_order
#print axioms Props.C44_erdos
#print axioms Props.C44_erdos_all
#print axioms Props.C44_erdos_unique
#print axioms Props.C44_random_graph
#print axioms Props.C45_to_complete_pdag
#print axioms Props.C46_interventional_cpdag
#print axioms Props.C47_covered_forest
#print axioms Props.C48_imset
#print axioms Props.C49_nodes_partial
#print axioms Props.C49_views_partial
#print axioms Props.C49_violated
#print axioms Props.C50_covariance
#print axioms Props.C50_inverse
#print axioms Props.C51_first_read_partial
#print axioms Props.C51_stale
#print axioms Props.C51_violated
#print axioms Props.C52_expectation_partial
#print axioms Props.C52_means_partial
#print axioms Props.C52_violated
#print axioms Props.C53_history
#print axioms Props.C53_set_arc_weight
#print axioms Props.C53_terminates
#print axioms Props.C54_powerset
#print axioms Props.C54_powerset_predicate
#print axioms Props.C55_possible_parents
#print axioms Props.C56_chain_components
#print axioms Props.C57_cam
#print axioms Props.C57_gauss
#print axioms Props.C57_missing
#print axioms Props.C57_sample
#print axioms Props.C58_extremal
#print axioms Props.C59_mec_size_connected_partial
#print axioms Props.C59_mec_size_partial
#print axioms Props.C59_mec_size_triangle_free_partial
#print axioms Props.C59_violated
#print axioms Props.C59_violated_empty
#print axioms Props.C60_confusion_partial
#print axioms Props.C60_skeleton
#print axioms Props.C60_violated
#print axioms Props.C61_edges_between_partial
#print axioms Props.C61_nodes_between_partial
#print axioms Props.C61_violated
#print axioms Props.C61_violated_arc
#print axioms Props.C62_resolved_sinks
#print axioms Props.C63_apply_edge_operation
#print axioms Props.C64_marginal_mag
#print axioms Props.C65_interventional_equivalence
#print axioms Props.C66_cpdag_new
#print axioms Props.C67_pdag_interventional_cpdag
#print axioms Props.C68_cpdag_extensions
#print axioms Props.C69_cpdag_round_trip
#print axioms Props.C70_undirected_effects
#print axioms Props.C71_dataframe_round_trip
#print axioms Props.C72_copy
#print axioms Props.C72_induced_ancestral
#print axioms Props.C72_induced_subgraph
#print axioms Props.C73_reachability_partial
#print axioms Props.C73_violated
#print axioms Props.C74_dicts
#print axioms Props.C75_is_maximal
#print axioms Props.C75_to_maximal
#print axioms Props.C75_to_maximal_old
#print axioms Props.C76_interventional
#print axioms Props.C76_nondescendants
#print axioms Props.C77_constructor_partial
#print axioms Props.C77_violated
#print axioms Props.C78_sample_partial
#print axioms Props.C78_violated
#print axioms Props.C79_counterfactuals
#print axioms Props.C80_effects
#print axioms Props.C80_zero
#print axioms Props.C81_confounders_partial
#print axioms Props.C81_violated
#print axioms Props.C82_rand_weights_partial
#print axioms Props.C82_violated
#print axioms Props.C83_edges
#print axioms Props.C83_old
#print axioms Props.C84_default
#print axioms Props.C84_relabel
#print axioms Props.C85_between
#print axioms Props.C86_chickering_sequence
#print axioms Props.C87_moves
#print axioms Props.C88_union
#print axioms Props.C89_none
#print axioms Props.C89_optimal_partial
#print axioms Props.C89_violated
#print axioms Props.C90_atomic_verification_partial
#print axioms Props.C90_covers
#print axioms Props.C90_violated
#print axioms Props.C91_greedy_partial
#print axioms Props.C91_violated
#print axioms Props.C92_greedy_guarantee
#print axioms Props.C93_greedy_fully
#print axioms Props.C94_discriminating_paths
#print axioms Props.C94_vstructures
#print axioms Props.C95_markov_equivalent
#print axioms Props.C96_partial
#print axioms Props.C96_violated
#print axioms Props.C97_legitimate_mark_changes
#print axioms Props.C97_undirected
#print axioms Props.C98_loose_mark_changes
#print axioms Props.C98_strict_subset
#print axioms Props.C99_connected
#print axioms Props.C99_get_all_mec

{
 "claims": [
  {
   "property": "C01",
   "status": "proved",
   "theorems": [
    "Cgpm.Props.C01_crp_bookkeeping",
    "Cgpm.Props.C01_crp_refusals"
   ],
   "note": ""
  },
  {
   "property": "C02",
   "status": "proved",
   "theorems": [
    "Cgpm.Props.C02_crp_predictive_normalised",
    "Cgpm.Props.C02_crp_predictive_value",
    "Cgpm.Props.C02_crp_observed_row"
   ],
   "note": ""
  },
  {
   "property": "C03",
   "status": "proved",
   "theorems": [
    "Cgpm.Props.C03_score_increment",
    "Cgpm.Props.C03_score_decrement",
    "Cgpm.Props.C03_score_is_chain_of_predictives",
    "Cgpm.Props.C03_exchangeable"
   ],
   "note": ""
  },
  {
   "property": "C04",
   "status": "proved",
   "theorems": [
    "Cgpm.Props.C04_gibbs_is_conditional",
    "Cgpm.Props.C04_gibbs_needs_seated_row"
   ],
   "note": ""
  },
  {
   "property": "C05",
   "status": "proved",
   "theorems": [
    "Cgpm.Props.C05_data_is_replay",
    "Cgpm.Props.C05_bernoulli",
    "Cgpm.Props.C05_categorical",
    "Cgpm.Props.C05_exponential",
    "Cgpm.Props.C05_geometric",
    "Cgpm.Props.C05_poisson",
    "Cgpm.Props.C05_normal",
    "Cgpm.Props.C05_lognormal",
    "Cgpm.Props.C05_vonmises",
    "Cgpm.Props.C05_normal_trunc",
    "Cgpm.Props.C05_beta",
    "Cgpm.Props.C05_order_independent",
    "Cgpm.Props.C05_undo"
   ],
   "note": ""
  },
  {
   "property": "C06",
   "status": "partial",
   "theorems": [
    "Cgpm.Props.C06_refusals",
    "Cgpm.Props.C06_refused_changes_nothing",
    "Cgpm.Props.C06_logpdf_support",
    "Cgpm.Props.C06_beta_clamp_violated",
    "Cgpm.Props.C06_beta_partial",
    "Cgpm.Props.C06_geometric_raises_type_error"
   ],
   "note": "Proved for all components but beta. For beta it is false of the code near 0 and 1 (C06_beta_clamp_violated); C06_beta_partial is the part that holds."
  },
  {
   "property": "C07",
   "status": "proved",
   "theorems": [
    "Cgpm.Props.C07_predictive_is_score_difference",
    "Cgpm.Props.C07_score_is_chain_of_predictives",
    "Cgpm.Props.C07_exchangeable"
   ],
   "note": ""
  },
  {
   "property": "C08",
   "status": "proved",
   "theorems": [
    "Cgpm.Props.C08_bernoulli",
    "Cgpm.Props.C08_categorical",
    "Cgpm.Props.C08_geometric",
    "Cgpm.Props.C08_poisson",
    "Cgpm.Props.C08_exponential",
    "Cgpm.Props.C08_normal",
    "Cgpm.Props.C08_lognormal"
   ],
   "note": ""
  },
  {
   "property": "C09",
   "status": "proved",
   "theorems": [
    "Cgpm.Props.C09_normal_scale",
    "Cgpm.Props.C09_lognormal_scale"
   ],
   "note": ""
  },
  {
   "property": "C10",
   "status": "proved",
   "theorems": [
    "Cgpm.Props.C10_rows_filed_once",
    "Cgpm.Props.C10_clusters_exact",
    "Cgpm.Props.C10_refusals",
    "Cgpm.Props.C10_primitives_store"
   ],
   "note": ""
  },
  {
   "property": "C11",
   "status": "proved",
   "theorems": [
    "Cgpm.Props.C11_consistent",
    "Cgpm.Props.C11_effect"
   ],
   "note": ""
  },
  {
   "property": "C12",
   "status": "proved",
   "theorems": [
    "Cgpm.Props.C12_add_remove_row",
    "Cgpm.Props.C12_same_answers"
   ],
   "note": ""
  },
  {
   "property": "C13",
   "status": "proved",
   "theorems": [
    "Cgpm.Props.C13_scoring_is_pure",
    "Cgpm.Props.C13_transition_moves_one_row"
   ],
   "note": ""
  },
  {
   "property": "C14",
   "status": "proved",
   "theorems": [
    "Cgpm.Props.C14_weights_are_scores",
    "Cgpm.Props.C14_weight_differences",
    "Cgpm.Props.C14_transition_probability"
   ],
   "note": ""
  },
  {
   "property": "C15",
   "status": "proved",
   "theorems": [
    "Cgpm.Props.C15_mixture",
    "Cgpm.Props.C15_density",
    "Cgpm.Props.C15_bayes",
    "Cgpm.Props.C15_given_cluster",
    "Cgpm.Props.C15_cluster_target",
    "Cgpm.Props.C15_prior_normalised",
    "Cgpm.Props.C15_library",
    "Cgpm.Props.C15_empty_view",
    "Cgpm.Props.C15_refusal"
   ],
   "note": "C15_cluster_target records that a query for the cluster given constraints of density zero returns NaN instead of being refused."
  },
  {
   "property": "C16",
   "status": "proved",
   "theorems": [
    "Cgpm.Props.C16_state",
    "Cgpm.Props.C16_state_density",
    "Cgpm.Props.C16_state_views",
    "Cgpm.Props.C16_independent",
    "Cgpm.Props.C16_other_views",
    "Cgpm.Props.C16_state_refusal",
    "Cgpm.Props.C16_fast",
    "Cgpm.Props.C16_agree",
    "Cgpm.Props.C16_fast_row",
    "Cgpm.Props.C16_fast_unknown"
   ],
   "note": "C16_state_refusal records that the network path refuses an impossible constraint in a view without targets while the fast path ignores it."
  },
  {
   "property": "C17",
   "status": "proved",
   "theorems": [
    "Cgpm.Props.C17_state",
    "Cgpm.Props.C17_normalised"
   ],
   "note": ""
  },
  {
   "property": "C18",
   "status": "partial",
   "theorems": [
    "Cgpm.Props.C18_consistent_partial",
    "Cgpm.Props.C18_checks_hold_partial",
    "Cgpm.Props.C18_constructor",
    "Cgpm.Props.C18_effect",
    "Cgpm.Props.C18_uncollapsed_violated"
   ],
   "note": "Proved over all histories of legal calls with all random outcomes, except column transitions of uncollapsed types while the views are not listed in increasing order, for which it is false of the code (C18_uncollapsed_violated)."
  },
  {
   "property": "C19",
   "status": "partial",
   "theorems": [
    "Cgpm.Props.C19_refusals_partial",
    "Cgpm.Props.C19_incorporate_accepts_iff",
    "Cgpm.Props.C19_incorporate_violated",
    "Cgpm.Props.C19_incorporate_dim_violated",
    "Cgpm.Props.C19_no_auxiliary_violated"
   ],
   "note": "Refusals by argument checks leave the State unchanged (C19_refusals_partial). Calls that raise on a value do not: C19_incorporate_violated, C19_incorporate_dim_violated. A column transition without auxiliary views raises and loses the column (C19_no_auxiliary_violated)."
  },
  {
   "property": "C20",
   "status": "proved",
   "theorems": [
    "Cgpm.Props.C20_add_remove_row",
    "Cgpm.Props.C20_same_answers",
    "Cgpm.Props.C20_only_last_row"
   ],
   "note": ""
  },
  {
   "property": "C21",
   "status": "partial",
   "theorems": [
    "Cgpm.Props.C21_loom_violated",
    "Cgpm.Props.C21_transition_partial",
    "Cgpm.Props.C21_history_partial",
    "Cgpm.Props.C21_order_violated",
    "Cgpm.Props.C21_new_column_violated",
    "Cgpm.Props.C21_removed_column_violated"
   ],
   "note": "Proved for States whose views are listed in increasing order of their identifiers. False otherwise (C21_order_violated) and for new columns that the constraints mention (C21_new_column_violated). After the removal of a column that a constraint mentions, every transition of the other column of the constraint raises and takes it out of its view (C21_removed_column_violated)."
  },
  {
   "property": "C22",
   "status": "partial",
   "theorems": [
    "Cgpm.Props.C22_constrained",
    "Cgpm.Props.C22_constrained_columns",
    "Cgpm.Props.C22_dependent",
    "Cgpm.Props.C22_unconstrained",
    "Cgpm.Props.C22_crp_law",
    "Cgpm.Props.C22_empty_blocks_violated",
    "Cgpm.Props.C22_empty_block_score_violated"
   ],
   "note": "Proved for the general initialiser, for the one used by State with both kinds of constraints and, without empty blocks, for the dependence-only one. Empty blocks pass validation and make the dependence-only initialiser and the score fail: C22_empty_blocks_violated, C22_empty_block_score_violated."
  },
  {
   "property": "C23",
   "status": "proved",
   "theorems": [
    "Cgpm.Props.C23_accepts_exactly",
    "Cgpm.Props.C23_satisfiable"
   ],
   "note": ""
  },
  {
   "property": "C24",
   "status": "proved",
   "theorems": [
    "Cgpm.Props.C24_score",
    "Cgpm.Props.C24_collapse"
   ],
   "note": ""
  },
  {
   "property": "C25",
   "status": "proved",
   "theorems": [
    "Cgpm.Props.C25_topological_sort",
    "Cgpm.Props.C25_terminates"
   ],
   "note": ""
  },
  {
   "property": "C26",
   "status": "proved",
   "theorems": [
    "Cgpm.Props.C26_accepted_iff",
    "Cgpm.Props.C26_accepted_network"
   ],
   "note": ""
  },
  {
   "property": "C27",
   "status": "proved",
   "theorems": [
    "Cgpm.Props.C27_weighted_sample",
    "Cgpm.Props.C27_no_constraints",
    "Cgpm.Props.C27_failure",
    "Cgpm.Props.C27_missing_input",
    "Cgpm.Props.C27_logpdf",
    "Cgpm.Props.C27_simulate"
   ],
   "note": ""
  },
  {
   "property": "C28",
   "status": "proved",
   "theorems": [
    "Cgpm.Props.C28_columns",
    "Cgpm.Props.C28_equivalence",
    "Cgpm.Props.C28_composed",
    "Cgpm.Props.C28_zero_only_if",
    "Cgpm.Props.C28_composed_symmetric",
    "Cgpm.Props.C28_unknown",
    "Cgpm.Props.C28_pairwise",
    "Cgpm.Props.C28_composed_pairwise",
    "Cgpm.Props.C28_child_of_root_is_zero",
    "Cgpm.Props.C28_children_of_one_root_is_zero"
   ],
   "note": ""
  },
  {
   "property": "C29",
   "status": "proved",
   "theorems": [
    "Cgpm.Props.C29_fraction",
    "Cgpm.Props.C29_range",
    "Cgpm.Props.C29_same_row",
    "Cgpm.Props.C29_symmetric",
    "Cgpm.Props.C29_default",
    "Cgpm.Props.C29_pairwise",
    "Cgpm.Props.C29_unknown_column",
    "Cgpm.Props.C29_no_columns"
   ],
   "note": ""
  },
  {
   "property": "C30",
   "status": "partial",
   "theorems": [
    "Cgpm.Props.C30_view_alternatives",
    "Cgpm.Props.C30_view",
    "Cgpm.Props.C30_view_restores",
    "Cgpm.Props.C30_view_at_once",
    "Cgpm.Props.C30_view_duplicate_violated",
    "Cgpm.Props.C30_view_all_rows_violated",
    "Cgpm.Props.C30_debug",
    "Cgpm.Props.C30_debug_cases",
    "Cgpm.Props.C30_debug_restores",
    "Cgpm.Props.C30_state",
    "Cgpm.Props.C30_state_unknown_column"
   ],
   "note": "Proved for queries that name each row once and leave some row out. Otherwise a query of a view raises after it has removed rows: C30_view_duplicate_violated, C30_view_all_rows_violated."
  },
  {
   "property": "C31",
   "status": "proved",
   "theorems": [
    "Cgpm.Props.C31_return_pipe",
    "Cgpm.Props.C31_result",
    "Cgpm.Props.C31_raises",
    "Cgpm.Props.C31_failure",
    "Cgpm.Props.C31_no_deadlock",
    "Cgpm.Props.C31_terminates",
    "Cgpm.Props.C31_parallel_map",
    "Cgpm.Props.C31_exit_hangs",
    "Cgpm.Props.C31_no_workers"
   ],
   "note": ""
  },
  {
   "property": "C32",
   "status": "proved",
   "theorems": [
    "Cgpm.Props.C32_loop",
    "Cgpm.Props.C32_iterations",
    "Cgpm.Props.C32_default",
    "Cgpm.Props.C32_time",
    "Cgpm.Props.C32_counts",
    "Cgpm.Props.C32_transition"
   ],
   "note": ""
  },
  {
   "property": "C33",
   "status": "partial",
   "theorems": [
    "Cgpm.Props.C33_query",
    "Cgpm.Props.C33_query_raises",
    "Cgpm.Props.C33_bad_index",
    "Cgpm.Props.C33_update",
    "Cgpm.Props.C33_update_all",
    "Cgpm.Props.C33_update_raises",
    "Cgpm.Props.C33_update_all_raises",
    "Cgpm.Props.C33_compose",
    "Cgpm.Props.C33_alter",
    "Cgpm.Props.C33_init",
    "Cgpm.Props.C33_add_state",
    "Cgpm.Props.C33_drop_state",
    "Cgpm.Props.C33_get_state",
    "Cgpm.Props.C33_histories",
    "Cgpm.Props.C33_parallel",
    "Cgpm.Props.C33_empty_violated",
    "Cgpm.Props.C33_inplace_violated",
    "Cgpm.Props.C33_twice_violated"
   ],
   "note": "Proved for non-empty requests without repetitions. False of the code for an empty request (all states are meant, C33_empty_violated), for a state requested twice (C33_twice_violated) and for an update that raises in the same process (C33_inplace_violated)."
  },
  {
   "property": "C34",
   "status": "partial",
   "theorems": [
    "Cgpm.Props.C34_state",
    "Cgpm.Props.C34_same_answers",
    "Cgpm.Props.C34_view",
    "Cgpm.Props.C34_view_gap_violated",
    "Cgpm.Props.C34_composite",
    "Cgpm.Props.C34_tokens_violated",
    "Cgpm.Props.C34_flag_violated",
    "Cgpm.Props.C34_engine",
    "Cgpm.Props.C34_engine_data_violated"
   ],
   "note": "Proved for States, for views whose row numbers have no gaps, for compositions (the State and the composed models) and for Engines whose states share the data. False of the code otherwise: views with gaps (C34_view_gap_violated), tokens of composed models (C34_tokens_violated), is_composite with conditional columns (C34_flag_violated), Engines whose states have different data (C34_engine_data_violated). Diagnostics and parameters of uncollapsed components are not in the model."
  },
  {
   "property": "C35",
   "status": "proved",
   "theorems": [
    "Cgpm.Props.C35_logsumexp",
    "Cgpm.Props.C35_mass_determines",
    "Cgpm.Props.C35_logsumexp_both_infinities",
    "Cgpm.Props.C35_no_overflow",
    "Cgpm.Props.C35_logmeanexp",
    "Cgpm.Props.C35_logmeanexp_weighted",
    "Cgpm.Props.C35_log_normalize"
   ],
   "note": ""
  },
  {
   "property": "C36",
   "status": "proved",
   "theorems": [
    "Cgpm.Props.C36_draw_has_positive_weight",
    "Cgpm.Props.C36_draw_probability",
    "Cgpm.Props.C36_draw_many",
    "Cgpm.Props.C36_simulate_many"
   ],
   "note": ""
  },
  {
   "property": "C37",
   "status": "proved",
   "theorems": [
    "Cgpm.Props.C37_partition_list",
    "Cgpm.Props.C37_partition_dict",
    "Cgpm.Props.C37_unknown_variable",
    "Cgpm.Props.C37_query_evidence"
   ],
   "note": ""
  },
  {
   "property": "C38",
   "status": "proved",
   "theorems": [
    "Cgpm.Props.C38_code",
    "Cgpm.Props.C38_rejects",
    "Cgpm.Props.C38_accepts_iff",
    "Cgpm.Props.C38_width",
    "Cgpm.Props.C38_injective",
    "Cgpm.Props.C38_linreg_width",
    "Cgpm.Props.C38_ols_width"
   ],
   "note": ""
  },
  {
   "property": "C39",
   "status": "partial",
   "theorems": [
    "Cgpm.Props.C39_resample",
    "Cgpm.Props.C39_members",
    "Cgpm.Props.C39_weights",
    "Cgpm.Props.C39_integrate",
    "Cgpm.Props.C39_assertion_violated",
    "Cgpm.Props.C39_inputs_violated"
   ],
   "note": "Proved when there are at least as many samples as states, without inputs. False of the code otherwise: C39_assertion_violated, C39_inputs_violated. The law of the resampled list is C78."
  },
  {
   "property": "C40",
   "status": "partial",
   "theorems": [
    "Cgpm.Props.C40_built",
    "Cgpm.Props.C40_import",
    "Cgpm.Props.C40_unsupported",
    "Cgpm.Props.C40_export",
    "Cgpm.Props.C40_roundtrip",
    "Cgpm.Props.C40_roundtrip_partial",
    "Cgpm.Props.C40_violated"
   ],
   "note": "Concentrations, the column partition, hyperparameters and refusals are proved in general, row partitions for views that list the rows in the order of the data (C40_roundtrip_partial); for other States it is false of the code (C40_violated)."
  },
  {
   "property": "C41",
   "status": "proved",
   "theorems": [
    "Cgpm.Props.C41_names",
    "Cgpm.Props.C41_import",
    "Cgpm.Props.C41_refuses",
    "Cgpm.Props.C41_short_row"
   ],
   "note": ""
  },
  {
   "property": "C42",
   "status": "proved",
   "theorems": [
    "Cgpm.Props.C42_linreg",
    "Cgpm.Props.C42_ols",
    "Cgpm.Props.C42_forest",
    "Cgpm.Props.C42_forest_counts",
    "Cgpm.Props.C42_forest_counts_stale",
    "Cgpm.Props.C42_mv"
   ],
   "note": "C42_forest_counts_stale records that RandomForest.unincorporate does not lower the category counts (only their number enters the densities)."
  },
  {
   "property": "C43",
   "status": "partial",
   "theorems": [
    "Cgpm.Props.C43_compose",
    "Cgpm.Props.C43_refused_answers",
    "Cgpm.Props.C43_tokens",
    "Cgpm.Props.C43_decompose",
    "Cgpm.Props.C43_restore",
    "Cgpm.Props.C43_network",
    "Cgpm.Props.C43_flag_partial",
    "Cgpm.Props.C43_flag_violated"
   ],
   "note": "Everything is proved over all histories, except that is_composite is exact only for States constructed without conditional columns; otherwise it is false of the code (C43_flag_violated). Calls of incorporate_dim with a column that a composed model produces are excluded from the histories (the code does not check them)."
  },
  {
   "property": "C44",
   "status": "proved",
   "theorems": [
    "Cgpm.Props.C44_mh",
    "Cgpm.Props.C44_mh_outside",
    "Cgpm.Props.C44_mh_ends",
    "Cgpm.Props.C44_proposal",
    "Cgpm.Props.C44_mh_move",
    "Cgpm.Props.C44_slice_interval",
    "Cgpm.Props.C44_slice_move",
    "Cgpm.Props.C44_slice",
    "Cgpm.Props.C44_rejection",
    "Cgpm.Props.C44_beta_params",
    "Cgpm.Props.C44_normal_trunc_params"
   ],
   "note": ""
  },
  {
   "property": "C45",
   "status": "partial",
   "theorems": [
    "Cgpm.Props.C45_composite_partial",
    "Cgpm.Props.C45_composite_simulate_partial",
    "Cgpm.Props.C45_composite_simulate_contradiction",
    "Cgpm.Props.C45_composite_new",
    "Cgpm.Props.C45_first_column_violated",
    "Cgpm.Props.C45_foreign_target_violated",
    "Cgpm.Props.C45_state_observed",
    "Cgpm.Props.C45_state_overlap",
    "Cgpm.Props.C45_state_contradiction",
    "Cgpm.Props.C45_state_row",
    "Cgpm.Props.C45_view_row",
    "Cgpm.Props.C45_view_cluster",
    "Cgpm.Props.C45_view_overlap"
   ],
   "note": "Proved for views, for States without foreign models and, in composite States, for every column but the first and for targets among the columns. False of the code for the first column (C45_first_column_violated) and for targets of composed models (C45_foreign_target_violated)."
  },
  {
   "property": "C46",
   "status": "proved",
   "theorems": [
    "Cgpm.Props.C46_hypers_shared",
    "Cgpm.Props.C46_set_hypers_leaves_template"
   ],
   "note": "C46_set_hypers_leaves_template records that set_hypers, as opposed to transition_hypers, does not refresh the template."
  },
  {
   "property": "C47",
   "status": "partial",
   "theorems": [
    "Cgpm.Props.C47_partition",
    "Cgpm.Props.C47_unknown",
    "Cgpm.Props.C47_refused",
    "Cgpm.Props.C47_sum",
    "Cgpm.Props.C47_zero",
    "Cgpm.Props.C47_mi_estimate",
    "Cgpm.Props.C47_entropy_estimate",
    "Cgpm.Props.C47_constrained",
    "Cgpm.Props.C47_marginalised",
    "Cgpm.Props.C47_marginal_violated",
    "Cgpm.Props.C47_views",
    "Cgpm.Props.C47_different_views",
    "Cgpm.Props.C47_exact"
   ],
   "note": "Splitting, summing, estimators and exactness are proved. False of the code: the marginalised variables are simulated without the equality constraints (C47_marginal_violated). scipy's connected_components is a contract (WeakLabels)."
  },
  {
   "property": "C48",
   "status": "proved",
   "theorems": [
    "Cgpm.Props.C48_new",
    "Cgpm.Props.C48_reindex",
    "Cgpm.Props.C48_density",
    "Cgpm.Props.C48_order",
    "Cgpm.Props.C48_chain",
    "Cgpm.Props.C48_marginal",
    "Cgpm.Props.C48_normalised",
    "Cgpm.Props.C48_generative",
    "Cgpm.Props.C48_posterior",
    "Cgpm.Props.C48_conditional",
    "Cgpm.Props.C48_simulate",
    "Cgpm.Props.C48_refused",
    "Cgpm.Props.C48_transition",
    "Cgpm.Props.C48_score_raises"
   ],
   "note": "Exact reals. Noise covariance positive definite (hypothesis Valid); numpy's inverse, Cholesky and normal generator are contracts. C48_score_raises records that logpdf_score, which is not part of the statement, raises on any data."
  },
  {
   "property": "C49",
   "status": "proved",
   "theorems": [
    "Cgpm.Props.C49_hist",
    "Cgpm.Props.C49_entropy",
    "Cgpm.Props.C49_invariant",
    "Cgpm.Props.C49_range",
    "Cgpm.Props.C49_cmi",
    "Cgpm.Props.C49_mi_symmetric",
    "Cgpm.Props.C49_mi",
    "Cgpm.Props.C49_chain"
   ],
   "note": ""
  },
  {
   "property": "C50",
   "status": "proved",
   "theorems": [
    "Cgpm.Props.C50_update_cctype",
    "Cgpm.Props.C50_refused_update_drops_column"
   ],
   "note": "C50_refused_update_drops_column records that a refused update has already removed the column."
  },
  {
   "property": "C51",
   "status": "partial",
   "theorems": [
    "Cgpm.Props.C51_refusals_partial",
    "Cgpm.Props.C51_raising_incorporate_violated"
   ],
   "note": "Refusals of duplicate and missing rows leave the view unchanged (C51_refusals_partial). The remaining case is false of the code: C51_raising_incorporate_violated proves that every incorporation that raises on a value leaves the view inconsistent."
  },
  {
   "property": "C52",
   "status": "partial",
   "theorems": [
    "Cgpm.Props.C52_column_weights_partial",
    "Cgpm.Props.C52_weight_differences_partial"
   ],
   "note": "Proved for States whose views are listed in increasing order, for all types and any number of auxiliary views; C21_order_violated shows that other orders attribute weights to the wrong views."
  },
  {
   "property": "C53",
   "status": "proved",
   "theorems": [
    "Cgpm.Props.C53_ancestors",
    "Cgpm.Props.C53_descendents",
    "Cgpm.Props.C53_converse",
    "Cgpm.Props.C53_unknown"
   ],
   "note": ""
  },
  {
   "property": "C54",
   "status": "partial",
   "theorems": [
    "Cgpm.Props.C54_sample",
    "Cgpm.Props.C54_density",
    "Cgpm.Props.C54_batch",
    "Cgpm.Props.C54_impossible",
    "Cgpm.Props.C54_row",
    "Cgpm.Props.C54_refused",
    "Cgpm.Props.C54_no_targets_violated",
    "Cgpm.Props.C54_batch_violated"
   ],
   "note": "Proved for one simulated row (C54_sample, C54_density) and for batches, per view up to order (C54_batch). False of the code for the joint law of a batch (C54_batch_violated) and for queries without targets (C54_no_targets_violated). The law of the values, end to end, is C70. The joint law of a batch is C77."
  },
  {
   "property": "C55",
   "status": "proved",
   "theorems": [
    "Cgpm.Props.C55_score",
    "Cgpm.Props.C55_logpdf",
    "Cgpm.Props.C55_normalised",
    "Cgpm.Props.C55_history",
    "Cgpm.Props.C55_set_hypers",
    "Cgpm.Props.C55_chain",
    "Cgpm.Props.C55_order",
    "Cgpm.Props.C55_posterior",
    "Cgpm.Props.C55_simulate",
    "Cgpm.Props.C55_observed",
    "Cgpm.Props.C55_refused",
    "Cgpm.Props.C55_simulate_refused",
    "Cgpm.Props.C55_nan"
   ],
   "note": "Exact reals; prior a, b > 0 and V positive definite (hypothesis ValidHyp, kept by set_hypers). NumPy's inverse, determinant and generators are contracts. Hyperparameter transitions enter through set_hypers. C55_nan records that a missing input, excluded from the statement, is accepted and answered with NaN."
  },
  {
   "property": "C56",
   "status": "proved",
   "theorems": [
    "Cgpm.Props.C56_log_linspace",
    "Cgpm.Props.C56_admissible",
    "Cgpm.Props.C56_no_data",
    "Cgpm.Props.C56_crp",
    "Cgpm.Props.C56_linreg"
   ],
   "note": "Exact reals. The Bessel functions of estimate_kappa are not modelled: its last iterate is any real or NaN (hypothesis: not exactly zero). At least one observed value; C56_no_data records that the call raises otherwise."
  },
  {
   "property": "C57",
   "status": "proved",
   "theorems": [
    "Cgpm.Props.C57_transition",
    "Cgpm.Props.C57_conditional",
    "Cgpm.Props.C57_invariant",
    "Cgpm.Props.C57_first",
    "Cgpm.Props.C57_kept",
    "Cgpm.Props.C57_missing_hyper",
    "Cgpm.Props.C57_unknown_hyper",
    "Cgpm.Props.C57_crp_transition",
    "Cgpm.Props.C57_crp_conditional",
    "Cgpm.Props.C57_linreg_transition",
    "Cgpm.Props.C57_linreg_conditional",
    "Cgpm.Props.C57_linreg_invariant"
   ],
   "note": "Exact reals; uniform draws of log_pflip are explicit and averaged over. The grids are those built from non-empty data in the support. C57_missing_hyper and C57_unknown_hyper record that an incomplete or unknown set of hyperparameters, excluded from the statement, is accepted and makes every later transition raise."
  },
  {
   "property": "C58",
   "status": "proved",
   "theorems": [
    "Cgpm.Props.C58_score_of_partition",
    "Cgpm.Props.C58_posterior",
    "Cgpm.Props.C58_transition",
    "Cgpm.Props.C58_missing_row",
    "Cgpm.Props.C58_conditional",
    "Cgpm.Props.C58_invariant",
    "Cgpm.Props.C58_passes"
   ],
   "note": "Catalogues of collapsed types; exact reals; the uniform draws of log_pflip are explicit and averaged over. Partitions are equivalence relations on the rows."
  },
  {
   "property": "C59",
   "status": "proved",
   "theorems": [
    "Cgpm.Props.C59_convergence",
    "Cgpm.Props.C59_limit"
   ],
   "note": "As C58; the order of each pass is arbitrary and fixed, so the statement covers every distribution of orders."
  },
  {
   "property": "C60",
   "status": "proved",
   "theorems": [
    "Cgpm.Props.C60_weight",
    "Cgpm.Props.C60_posterior",
    "Cgpm.Props.C60_transition",
    "Cgpm.Props.C60_invariant_column",
    "Cgpm.Props.C60_invariant"
   ],
   "note": "Catalogues of collapsed types; exact reals; all uniform draws, including those of the auxiliary views, are explicit and averaged over. Views listed in increasing order (C21_order_violated and C52 show why); concentrations on the grids built for the present rows and columns; hyperparameters fixed. States with conditional columns or dependence constraints are refused by the code (C21)."
  },
  {
   "property": "C61",
   "status": "proved",
   "theorems": [
    "Cgpm.Props.C61_transition",
    "Cgpm.Props.C61_invariant",
    "Cgpm.Props.C61_refused",
    "Cgpm.Props.C61_untouched"
   ],
   "note": "As C60, for a schedule of kernels; kernel 'column_hypers' is not among them (C63 adds it), nor the argument `views`. Collapsed types have no parameters to draw in 'column_params'. Orders of dictionaries, sets and permutations are arbitrary and fixed."
  },
  {
   "property": "C62",
   "status": "proved",
   "theorems": [
    "Cgpm.Props.C62_convergence",
    "Cgpm.Props.C62_limit",
    "Cgpm.Props.C62_probability"
   ],
   "note": "Same model and restrictions as C61, with no columns or rows named. The start has its concentrations on their grids, as a State built without given concentrations has."
  },
  {
   "property": "C63",
   "status": "proved",
   "theorems": [
    "Cgpm.Props.C63_posterior",
    "Cgpm.Props.C63_transition",
    "Cgpm.Props.C63_invariant",
    "Cgpm.Props.C63_untouched",
    "Cgpm.Props.C63_refused"
   ],
   "note": "As C61, with kernel 'column_hypers' and its draws; columns of the collapsed primitive types, grids as construct_hyper_grids builds them from non-empty data in the support (30 points). The posterior is on choices of grid positions, so a value listed twice in a grid counts twice, as in the code."
  },
  {
   "property": "C64",
   "status": "proved",
   "theorems": [
    "Cgpm.Props.C64_convergence",
    "Cgpm.Props.C64_limit",
    "Cgpm.Props.C64_probability"
   ],
   "note": "Same model and restrictions as C63, with no columns or rows named. The start has hyperparameters and concentrations on their grids, as a State built without given ones has."
  },
  {
   "property": "C65",
   "status": "partial",
   "theorems": [
    "Cgpm.Props.C65_logpdf_partial",
    "Cgpm.Props.C65_normalised",
    "Cgpm.Props.C65_simulate_partial",
    "Cgpm.Props.C65_many_partial",
    "Cgpm.Props.C65_chain_partial",
    "Cgpm.Props.C65_order_partial",
    "Cgpm.Props.C65_history",
    "Cgpm.Props.C65_new",
    "Cgpm.Props.C65_logpdf_refused",
    "Cgpm.Props.C65_simulate_refused",
    "Cgpm.Props.C65_score_partial",
    "Cgpm.Props.C65_few_violated",
    "Cgpm.Props.C65_unseen_violated",
    "Cgpm.Props.C65_missing_violated"
   ],
   "note": "Proved if every category of the variables of a query occurs among the rows used and, for logpdf without evidence, there are more of these rows than targets; the chain rule if no cell is missing. Otherwise the property is false of the code: C65_unseen_violated, C65_few_violated, C65_missing_violated. statsmodels enters as the formulas of its kernels."
  },
  {
   "property": "C66",
   "status": "partial",
   "theorems": [
    "Cgpm.Props.C66_logpdf",
    "Cgpm.Props.C66_nearest_partial",
    "Cgpm.Props.C66_simulate",
    "Cgpm.Props.C66_normalised",
    "Cgpm.Props.C66_many_partial",
    "Cgpm.Props.C66_ties",
    "Cgpm.Props.C66_fallback",
    "Cgpm.Props.C66_fallback_all",
    "Cgpm.Props.C66_logpdf_refused",
    "Cgpm.Props.C66_simulate_refused",
    "Cgpm.Props.C66_history",
    "Cgpm.Props.C66_new",
    "Cgpm.Props.C66_ties_violated",
    "Cgpm.Props.C66_many_violated",
    "Cgpm.Props.C66_locality_violated",
    "Cgpm.Props.C66_labels_violated"
   ],
   "note": "In general (C66_logpdf, C66_normalised, C66_simulate) the neighbours are K rows with fewer than K nearer ones each, and the law is the average over their random choice; one answer and independent samples are proved if K rows are nearer than all others (C66_nearest_partial, C66_many_partial). Otherwise the property is false of the code: C66_ties_violated, C66_many_violated; also C66_labels_violated, and C66_locality_violated (M above K has no effect). sklearn's KDTree enters by its contract, `Finds`."
  },
  {
   "property": "C67",
   "status": "proved",
   "theorems": [
    "Cgpm.Props.C67_logpdf",
    "Cgpm.Props.C67_normalised",
    "Cgpm.Props.C67_simulate",
    "Cgpm.Props.C67_observed",
    "Cgpm.Props.C67_logpdf_refused",
    "Cgpm.Props.C67_simulate_refused",
    "Cgpm.Props.C67_score",
    "Cgpm.Props.C67_transition",
    "Cgpm.Props.C67_transitions",
    "Cgpm.Props.C67_history"
   ],
   "note": "sklearn's classifier enters by its contract, `Fits`; numbers are exact reals. A refusal is any exception. `N` of the refusal theorem for simulate is None or positive."
  },
  {
   "property": "C68",
   "status": "partial",
   "theorems": [
    "Cgpm.Props.C68_logpdf",
    "Cgpm.Props.C68_normalised",
    "Cgpm.Props.C68_logpdf_refused",
    "Cgpm.Props.C68_foreign_targets_violated",
    "Cgpm.Props.C68_simulate_partial",
    "Cgpm.Props.C68_simulate_violated",
    "Cgpm.Props.C68_many_violated",
    "Cgpm.Props.C68_simulate_refused",
    "Cgpm.Props.C68_transition",
    "Cgpm.Props.C68_exact_violated",
    "Cgpm.Props.C68_history"
   ],
   "note": "Density, normalisation, refusals, transition and histories are proved. The law of samples is false of the code (C68_simulate_violated; C68_simulate_partial says what it returns), as are N samples at an observed row (C68_many_violated), the refusal of foreign targets (C68_foreign_targets_violated) and queries after an exact fit (C68_exact_violated). sklearn's solver enters by its contract, `LeastSquares`, which a solver is shown to meet."
  },
  {
   "property": "C69",
   "status": "proved",
   "theorems": [
    "Cgpm.Props.C69_law",
    "Cgpm.Props.C69_normalised",
    "Cgpm.Props.C69_returns",
    "Cgpm.Props.C69_observed",
    "Cgpm.Props.C69_refused",
    "Cgpm.Props.C69_many",
    "Cgpm.Props.C69_trunc",
    "Cgpm.Props.C69_crp"
   ],
   "note": "All ten component types and the CRP. numpy's generators are taken to have the laws their documentation names (Model/PrimSimulate); `Prim.Proper` states what `set_hypers` leaves unchecked."
  },
  {
   "property": "C70",
   "status": "proved",
   "theorems": [
    "Cgpm.Props.C70_law",
    "Cgpm.Props.C70_returns",
    "Cgpm.Props.C70_normalised",
    "Cgpm.Props.C70_columns",
    "Cgpm.Props.C70_impossible",
    "Cgpm.Props.C70_row",
    "Cgpm.Props.C70_marginal",
    "Cgpm.Props.C70_possible"
   ],
   "note": "One row (`N=None`), columns without inputs. Columns of type normal_trunc, whose simulate may give up, are excluded by ProperCols. numpy's generators are taken to have the laws their documentation names (see C69)."
  },
  {
   "property": "C71",
   "status": "proved",
   "theorems": [
    "Cgpm.Props.C71_law",
    "Cgpm.Props.C71_evidence",
    "Cgpm.Props.C71_returns",
    "Cgpm.Props.C71_simulate",
    "Cgpm.Props.C71_logpdf",
    "Cgpm.Props.C71_primitive"
   ],
   "note": "Components are any that satisfy Spec/NetDraws.Behaves (C71_primitive: those of src/primitives do). Real-valued variables; one sample (`N=None`)."
  },
  {
   "property": "C72",
   "status": "proved",
   "theorems": [
    "Cgpm.Props.C72_simulate",
    "Cgpm.Props.C72_simulate_limit",
    "Cgpm.Props.C72_logpdf",
    "Cgpm.Props.C72_logpdf_given",
    "Cgpm.Props.C72_logpdf_limit",
    "Cgpm.Props.C72_exact",
    "Cgpm.Props.C72_logpdf_exact",
    "Cgpm.Props.C72_logpdf_given_exact",
    "Cgpm.Props.C72_moment",
    "Cgpm.Props.C72_one_sample",
    "Cgpm.Props.C72_one_sample_far"
   ],
   "note": "Components as in C71, real-valued variables, one sample (`N=None`). The second moment of the weights must be finite, as C72_moment shows if the constrained components have settled inputs or bounded densities. C72_one_sample_far shows what the default accuracy does."
  },
  {
   "property": "C73",
   "status": "proved",
   "theorems": [
    "Cgpm.Props.C73_view",
    "Cgpm.Props.C73_simulate",
    "Cgpm.Props.C73_simulate_limit",
    "Cgpm.Props.C73_logpdf",
    "Cgpm.Props.C73_logpdf_limit",
    "Cgpm.Props.C73_settled",
    "Cgpm.Props.C73_own_simulate",
    "Cgpm.Props.C73_own_logpdf"
   ],
   "note": "New rows (`rowid=None` or not a row of the State), columns of the primitive types without inputs, real-valued variables, one sample (`N=None`); evidence of positive density. The composed models are any components with the contract of C71 (`Behaves`)."
  },
  {
   "property": "C74",
   "status": "proved",
   "theorems": [
    "Cgpm.Props.C74_factor_simulate",
    "Cgpm.Props.C74_factor",
    "Cgpm.Props.C74_forest_simulate",
    "Cgpm.Props.C74_forest",
    "Cgpm.Props.C74_contract",
    "Cgpm.Props.C74_possible",
    "Cgpm.Props.C74_moment",
    "Cgpm.Props.C74_simulate",
    "Cgpm.Props.C74_simulate_limit",
    "Cgpm.Props.C74_logpdf_limit",
    "Cgpm.Props.C74_linreg_observed",
    "Cgpm.Props.C74_linreg_simulate",
    "Cgpm.Props.C74_linreg"
   ],
   "note": "New rows, one sample (`N=None`). Regressions with numerical inputs (nominal inputs: C55, C74_linreg_simulate). `multivariate_normal` of numpy is a mean plus a square root of the covariance times independent standard normals; any square root (Root.Good). The probabilities of a fitted forest are assumed to be a measurable function of the inputs. OLS, KDE and k nearest neighbours do not keep the contract (C58, C65, C68)."
  },
  {
   "property": "C75",
   "status": "partial",
   "theorems": [
    "Cgpm.Props.C75_half",
    "Cgpm.Props.C75_half_only",
    "Cgpm.Props.C75_half_run",
    "Cgpm.Props.C75_strength",
    "Cgpm.Props.C75_interval",
    "Cgpm.Props.C75_unit_violated",
    "Cgpm.Props.C75_balance_violated",
    "Cgpm.Props.C75_interval_violated",
    "Cgpm.Props.C75_mu_violated",
    "Cgpm.Props.C75_sigma_violated",
    "Cgpm.Props.C75_beta_transition",
    "Cgpm.Props.C75_normal_trunc_transition"
   ],
   "note": "True on the positive numbers (C75_half, C75_half_only, C75_half_run), hence for the strength of a beta component (C75_strength). False of the code on the unit interval, where the fold is not symmetric (C75_unit_violated: balance of a beta component, C75_balance_violated), on other intervals, where the truncated proposal is not corrected (C75_interval says what is left invariant instead; C75_interval_violated, C75_mu_violated), and for the deviation of a truncated normal, whose target is not the score (C75_sigma_violated). A whole run is covered only if it ends before the jump size is first tuned; transition_params makes 101 iterations with tuning every 20. Whole transitions with tuning: termination, absence of errors and range of the parameters (C75_beta_transition, C75_normal_trunc_transition)."
  },
  {
   "property": "C76",
   "status": "partial",
   "theorems": [
    "Cgpm.Props.C76_troll",
    "Cgpm.Props.C76_uniform",
    "Cgpm.Props.C76_parabola",
    "Cgpm.Props.C76_sin",
    "Cgpm.Props.C76_dots",
    "Cgpm.Props.C76_dots_violated",
    "Cgpm.Props.C76_ring",
    "Cgpm.Props.C76_diamond",
    "Cgpm.Props.C76_parabola_simulate",
    "Cgpm.Props.C76_sin_simulate",
    "Cgpm.Props.C76_directed_violated",
    "Cgpm.Props.C76_marginal_violated",
    "Cgpm.Props.C76_linear",
    "Cgpm.Props.C76_xcross",
    "Cgpm.Props.C76_piecewise_simulate",
    "Cgpm.Props.C76_piecewise_given_z",
    "Cgpm.Props.C76_piecewise_violated",
    "Cgpm.Props.C76_piecewise_z_violated",
    "Cgpm.Props.C76_twoway",
    "Cgpm.Props.C76_fourway",
    "Cgpm.Props.C76_twoway_retrieve",
    "Cgpm.Props.C76_fourway_retrieve",
    "Cgpm.Props.C76_fourway_violated"
   ],
   "note": "True of TrollNormal, UniformX, ParabolaY, SinY (contract of a component: C76_troll, C76_uniform, C76_parabola, C76_sin), of the pairs drawn by Parabola and Sin (C76_parabola_simulate, C76_sin_simulate), TwoWay, FourWay for a negative second input, the draws of PieceWise without constraints and of x given z, Linear, XCross, the draws and joint density of Dots, Ring, DiamondY for an input other than 0. False of the code: FourWay otherwise (the reported probabilities sum to 0.9 or 1.1, C76_fourway_violated), every density of x that PieceWise reports (C76_piecewise_violated) and its draws of z given x (C76_piecewise_z_violated), constraints of Parabola, Sin and Diamond (dropped, C76_directed_violated), the density of one variable of a pair model (AttributeError, C76_marginal_violated) and the conditional density of Dots (C76_dots_violated). One sample (`N=None`)."
  },
  {
   "property": "C77",
   "status": "proved",
   "theorems": [
    "Cgpm.Props.C77_views",
    "Cgpm.Props.C77_columns",
    "Cgpm.Props.C77_one_view",
    "Cgpm.Props.C77_row",
    "Cgpm.Props.C77_row_columns",
    "Cgpm.Props.C77_impossible"
   ],
   "note": "Laws by expected values of all measurable functions. Targets in several views of a new row are not jointly independent over the rows: C54_batch_violated."
  },
  {
   "property": "C78",
   "status": "proved",
   "theorems": [
    "Cgpm.Props.C78_resample",
    "Cgpm.Props.C78_states",
    "Cgpm.Props.C78_row"
   ],
   "note": "C78_resample for any states, C78_states for a new row and targets in one view of each state, C78_row for a row of the states. The generators of the states and of the Engine are taken to be independent (the code seeds the states from the Engine's generator). C39 says what is chosen for given draws."
  },
  {
   "property": "C79",
   "status": "partial",
   "theorems": [
    "Cgpm.Props.C79_history",
    "Cgpm.Props.C79_simulate",
    "Cgpm.Props.C79_incorporate",
    "Cgpm.Props.C79_unincorporate",
    "Cgpm.Props.C79_simulable",
    "Cgpm.Props.C79_roundtrip",
    "Cgpm.Props.C79_constraint_violated",
    "Cgpm.Props.C79_refused_violated"
   ],
   "note": "C79_history for all calls; C79_simulate: no trace and the drawn values; C79_incorporate, C79_unincorporate, C79_simulable, C79_roundtrip after histories without values for rows without cells; C79_constraint_violated: after a simulate with constraints for a row without cells the row counts as known, with no inputs, so that it cannot be incorporated (KeyError) but can be unincorporated; C79_refused_violated: when an observer refuses a value, the values observed before it in the same call stay. The interpreter is modelled by its labelled directives; what inference does to unobserved variables is not modelled."
  },
  {
   "property": "C80",
   "status": "proved",
   "theorems": [
    "Cgpm.Props.C80_mi",
    "Cgpm.Props.C80_entropy",
    "Cgpm.Props.C80_entropy_finite",
    "Cgpm.Props.C80_query"
   ],
   "note": "C80_mi for one view: no moment condition is needed, the ratio of the densities being bounded by the weights of the clusters. C80_query for mutual_information with given values, over all views. C80_entropy, C80_entropy_finite. Marginalised constraints (value None) and composed models are not covered here."
  },
  {
   "property": "C81",
   "status": "proved",
   "theorems": [
    "Cgpm.Props.C81_reversible",
    "Cgpm.Props.C81_ends",
    "Cgpm.Props.C81_invariant",
    "Cgpm.Props.C81_run",
    "Cgpm.Props.C81_joint",
    "Cgpm.Props.C81_samples"
   ],
   "note": "C81_reversible needs only w > 0 and measurability. C81_ends, C81_invariant, C81_run, C81_samples and C81_joint for densities of finite mass on a domain at whose points the log density returns; no continuity is assumed. The loops are run with bounds on their rounds, and the theorems are about the supremum over these bounds. Real arithmetic."
  },
  {
   "property": "C82",
   "status": "partial",
   "theorems": [
    "Cgpm.Props.C82_samples",
    "Cgpm.Props.C82_log_violated"
   ],
   "note": "C82_samples for densities, as the code uses its arguments. C82_log_violated: with log densities, as the documentation of the arguments asks, nothing is accepted when the log density of the proposal is negative."
  },
  {
   "property": "C83",
   "status": "proved",
   "theorems": [
    "Cgpm.Props.C83_logpdf",
    "Cgpm.Props.C83_gradient"
   ],
   "note": "C83_logpdf and C83_gradient for positive definite covariances and any cho_factor that meets Spec.Mvn.IsChoFactor (cholesky_exists shows that one exists). Covariance_Loser, the fallback for other matrices, is left open. Real arithmetic."
  },
  {
   "property": "C84",
   "status": "partial",
   "theorems": [
    "Cgpm.Props.C84_reads",
    "Cgpm.Props.C84_succeeds",
    "Cgpm.Props.C84_frame",
    "Cgpm.Props.C84_order",
    "Cgpm.Props.C84_distargs",
    "Cgpm.Props.C84_stated_k_violated",
    "Cgpm.Props.C84_column_name_violated"
   ],
   "note": "Proved for names of columns without parentheses, except for types with a stated number of categories: C84_stated_k_violated. A categorical column whose name has a parenthesised text cannot be read (C84_column_name_violated). pandas' replace is taken to replace all values at once. A list of several types is not covered: C84_distargs is about one entry, as parse_schema calls it, so the order of the arguments of a longer list is unproved."
  },
  {
   "property": "C85",
   "status": "partial",
   "theorems": [
    "Cgpm.Props.C85_history",
    "Cgpm.Props.C85_logpdf",
    "Cgpm.Props.C85_simulate",
    "Cgpm.Props.C85_simulate_refused",
    "Cgpm.Props.C85_metadata",
    "Cgpm.Props.C85_error_violated",
    "Cgpm.Props.C85_construct"
   ],
   "note": "Proved for histories during which Venture does not raise. False of the code afterwards: the expression stays assumed and every later query of the same kind raises (C85_error_violated). Venture is a parameter; that assume and observe raise for a label in use is an assumption about Venture."
  },
  {
   "property": "C86",
   "status": "partial",
   "theorems": [
    "Cgpm.Props.C86_linreg",
    "Cgpm.Props.C86_linreg_prior_violated",
    "Cgpm.Props.C86_ols",
    "Cgpm.Props.C86_forest",
    "Cgpm.Props.C86_kde",
    "Cgpm.Props.C86_knn",
    "Cgpm.Props.C86_factor"
   ],
   "note": "Proved for all six models. False of the code for a linear regression whose prior mean or scale is not the default: they are not saved (C86_linreg_prior_violated). Pickling is assumed to restore a regressor; sharing of lists with the original is not modelled; the forest is not retrained after loading."
  },
  {
   "property": "C87",
   "status": "partial",
   "theorems": [
    "Cgpm.Props.C87_transition",
    "Cgpm.Props.C87_refused",
    "Cgpm.Props.C87_steps_violated",
    "Cgpm.Props.C87_missing_violated"
   ],
   "note": "Proved for every reachable State of normal and categorical columns without inputs in which each categorical column has an observed value, and a number of steps or a time is given. Otherwise false of the code: C87_steps_violated, C87_missing_violated. Lovecat is a parameter; column names, col_ensure, diagnostics and the transitions of hyperparameters afterwards are not part of the model of this function."
  },
  {
   "property": "C88",
   "status": "partial",
   "theorems": [
    "Cgpm.Props.C88_entropy",
    "Cgpm.Props.C88_refused",
    "Cgpm.Props.C88_entropy_permute",
    "Cgpm.Props.C88_entropy_affine",
    "Cgpm.Props.C88_mi",
    "Cgpm.Props.C88_mi_symmetric",
    "Cgpm.Props.C88_mi_permute",
    "Cgpm.Props.C88_mi_translate",
    "Cgpm.Props.C88_cmi",
    "Cgpm.Props.C88_cmi_symmetric",
    "Cgpm.Props.C88_kldiv",
    "Cgpm.Props.C88_one_violated",
    "Cgpm.Props.C88_micd"
   ],
   "note": "Values for k >= 1 (kldiv: k >= 2), refusals, ties and invariances are proved; cmi for z of the length of x (the code does not check it). False of the code: kldiv with k = 1 and entropy with k = 0 raise IndexError (C88_one_violated). The KD tree answers exactly; digamma is a parameter; floats are reals."
  },
  {
   "property": "C89",
   "status": "partial",
   "theorems": [
    "Cgpm.Props.C89_transition",
    "Cgpm.Props.C89_current",
    "Cgpm.Props.C89_refused",
    "Cgpm.Props.C89_untyped",
    "Cgpm.Props.C89_engine",
    "Cgpm.Props.C89_mixed",
    "Cgpm.Props.C89_types",
    "Cgpm.Props.C89_stale_violated",
    "Cgpm.Props.C89_clash_violated"
   ],
   "note": "Proved for every reachable State whose project, if it has one, describes it; this stays so through every change that keeps the table and the types (C89_current). False of the code after the data has changed (C89_stale_violated) and for two projects created in the same second (C89_clash_violated). Loom is a parameter; the transitions of hyperparameters afterwards are not part of the model of this function."
  },
  {
   "property": "C90",
   "status": "partial",
   "theorems": [
    "Cgpm.Props.C90_fresh",
    "Cgpm.Props.C90_integer_violated",
    "Cgpm.Props.C90_chain",
    "Cgpm.Props.C90_unorm",
    "Cgpm.Props.C90_choose",
    "Cgpm.Props.C90_choose_violated",
    "Cgpm.Props.C90_gibbs",
    "Cgpm.Props.C90_refused"
   ],
   "note": "False of the code for an integer concentration less than m (C90_integer_violated) and for log_nCk(0, k) with k > 0 (C90_choose_violated); otherwise proved. logp_crp_gibbs for a list of counts, not a dictionary; floats are reals."
  },
  {
   "property": "C91",
   "status": "partial",
   "theorems": [
    "Cgpm.Props.C91_incorporate",
    "Cgpm.Props.C91_incorporate_stops",
    "Cgpm.Props.C91_surplus_violated",
    "Cgpm.Props.C91_force",
    "Cgpm.Props.C91_force_order",
    "Cgpm.Props.C91_force_stops",
    "Cgpm.Props.C91_force_surplus_violated",
    "Cgpm.Props.C91_simulate",
    "Cgpm.Props.C91_logpdf",
    "Cgpm.Props.C91_queries_refused"
   ],
   "note": "False of the code for lists of different lengths in incorporate_bulk and force_cell_bulk: the surplus is ignored (C91_surplus_violated); otherwise proved. The single queries enter as arbitrary functions of their arguments and draws."
  },
  {
   "property": "C92",
   "status": "partial",
   "theorems": [
    "Cgpm.Props.C92_partition",
    "Cgpm.Props.C92_partition_refused",
    "Cgpm.Props.C92_table",
    "Cgpm.Props.C92_accepted",
    "Cgpm.Props.C92_law",
    "Cgpm.Props.C92_labels_violated",
    "Cgpm.Props.C92_separation_violated",
    "Cgpm.Props.C92_single_violated"
   ],
   "note": "Proved for all weights, types, draws and shuffles with separations in (0, 1]. The violated theorems show the cases where the documentation promises more: separation 0 of a column of angles raises ZeroDivisionError, a single cluster of a column of zeros and ones is always 0, and a given partition of the columns with labels not counted from zero raises IndexError."
  }
 ]
}
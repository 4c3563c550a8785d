{
 "claims": [
  {
   "property": "C01",
   "status": "proved",
   "theorems": [
    "CF.C01_counts_conserved"
   ],
   "note": "All reachable CobwebTrees; any attribute/value types with decidable equality."
  },
  {
   "property": "C02",
   "status": "proved",
   "theorems": [
    "CF.C02_root_summarises_history",
    "CF.C02_order_independent"
   ],
   "note": ""
  },
  {
   "property": "C03",
   "status": "proved",
   "theorems": [
    "CF.C03_leaves_partition"
   ],
   "note": ""
  },
  {
   "property": "C04",
   "status": "proved",
   "theorems": [
    "CF.C04_ifit_returns_matching_leaf"
   ],
   "note": ""
  },
  {
   "property": "C05",
   "status": "proved",
   "theorems": [
    "CF.C05_at_least_two_children"
   ],
   "note": ""
  },
  {
   "property": "C06",
   "status": "proved",
   "theorems": [
    "CF.C06_ifit_terminates",
    "CF.C06_categorize_terminates"
   ],
   "note": "For arbitrary trees, not only reachable ones."
  },
  {
   "property": "C07",
   "status": "partial",
   "theorems": [
    "CF.C07_ifit_never_raises_partial",
    "CF.C07_categorize_never_raises_partial",
    "CF.C07_hidden_only_instance_raises",
    "CF.C07_poisoned_tree",
    "CF.C07_ifit_raises_iff",
    "CF.C07_categorize_raises_iff"
   ],
   "note": "The full property is false of the code: an instance without a visible attribute makes expected_correct_guesses divide by zero. C07_ifit_raises_iff and C07_categorize_raises_iff say exactly after which histories and on which instances the calls raise (given pairwise distinct random numbers); the _partial theorems are the case without such instances."
  },
  {
   "property": "C08",
   "status": "proved",
   "theorems": [
    "CF.C08_ids_unique"
   ],
   "note": ""
  },
  {
   "property": "C09",
   "status": "proved",
   "theorems": [
    "CF.C09_fit_exactly"
   ],
   "note": "shuffle is any permutation-valued function."
  },
  {
   "property": "C10",
   "status": "proved",
   "theorems": [
    "CF.C10_categorize_descends",
    "CF.C10_categorize_unchanged",
    "CF.C10_infer_unchanged",
    "CF.C10_categorize_unchanged_cobweb3"
   ],
   "note": "On the store of mutable node objects: no existing object and not the root is changed, whether the call returns or raises; the returned leaf is reached by greedy descent."
  },
  {
   "property": "C100",
   "status": "partial",
   "theorems": [
    "CF.C100_choice",
    "CF.C100_choice_defined_partial",
    "CF.C100_choice_subnormal",
    "CF.C100_choice_compensated",
    "CF.C100_predict_most_likely",
    "CF.C100_predict_defined",
    "CF.C100_predict_sampled_partial",
    "CF.C100_sampled_compensated",
    "CF.C100_leaf_mean",
    "CF.C100_regression",
    "CF.C100_predict_unknown",
    "CF.C100_infer",
    "CF.C100_infer_sampled_partial",
    "CF.C100_probability",
    "CF.C100_unrounded"
   ],
   "note": "Sampling is proved to return for the sum that rounds each addition; with the compensated sum of Python 3.12 it can raise (C100_sampled_compensated), and weighted_choice raises on subnormal weights (C100_choice_subnormal). The rest holds as stated."
  },
  {
   "property": "C101",
   "status": "partial",
   "theorems": [
    "CF.C101_reach",
    "CF.C101_every_node",
    "CF.C101_conserved",
    "CF.C101_leaves",
    "CF.C101_scales",
    "CF.C101_names_known",
    "CF.C101_disjoint",
    "CF.C101_ifit",
    "CF.C101_categorize",
    "CF.C101_prep",
    "CF.C101_never_raises_partial",
    "CF.C101_histories_partial",
    "CF.C101_overflow_raises",
    "CF.C101_numbers",
    "CF.C101_which_numbers"
   ],
   "note": "Everything but the last sentence is proved for all inputs. That nothing raises is proved for finite numbers below 2^1023 and searches that return; C101_overflow_raises shows that the bound is exact."
  },
  {
   "property": "C102",
   "status": "partial",
   "theorems": [
    "CF.C102_update_scales",
    "CF.C102_rejected",
    "CF.C102_as_floats",
    "CF.C102_every_node",
    "CF.C102_conserved",
    "CF.C102_leaves",
    "CF.C102_ifit",
    "CF.C102_inexact",
    "CF.C102_scale_num",
    "CF.C102_scales",
    "CF.C102_categorize_rejected",
    "CF.C102_never_raises_partial",
    "CF.C102_odd",
    "CF.C102_small",
    "CF.C102_large",
    "CF.C102_rejection_has_effect"
   ],
   "note": "Partial: calls return for floats below 2^1023 (the bound is the best possible, C99_overflow_raises). That a rejected instance has no effect is refuted for the scales (C102_rejection_has_effect) and proved for the concepts. What an exception raised after update_scales leaves behind is not modelled."
  },
  {
   "property": "C103",
   "status": "proved",
   "theorems": [
    "CF.C103_tree",
    "CF.C103_counts",
    "CF.C103_leaves",
    "CF.C103_undisturbed",
    "CF.C103_tied_witness",
    "CF.C103_tree_cobweb3",
    "CF.C103_undisturbed_cobweb3",
    "CF.C103_scales_witness"
   ],
   "note": "On the store of node objects, any scoring function that may raise. The two witnesses are the negations of 'a call that raises has no effect', for tied random numbers and for attr_scales."
  },
  {
   "property": "C104",
   "status": "partial",
   "theorems": [
    "CF.C104_frame",
    "CF.C104_simulate",
    "CF.C104_convert",
    "CF.C104_convert_twice",
    "CF.NearestHalf.unique",
    "CF.C104_csv",
    "CF.C104_csv_incomplete",
    "CF.C104_plot",
    "CF.C104_plot_evaluation",
    "CF.C104_human",
    "CF.C104_iris"
   ],
   "note": "Everything but the sentence on the file of acs_simulation.py is proved; that is false: a line has the first two scores of a run (C104_csv), the other scores are dropped (C104_csv_incomplete)."
  },
  {
   "property": "C105",
   "status": "proved",
   "theorems": [
    "CF.C105_tables",
    "CF.C105_weighted_values",
    "CF.C105_predict_most_likely",
    "CF.C105_predict_total",
    "CF.C105_predict_sampled",
    "CF.C105_infer_missing",
    "CF.C105_infer_missing_total",
    "CF.C105_log_likelihood",
    "CF.C105_pretty_print",
    "CF.C105_output_json",
    "CF.C105_output_root"
   ],
   "note": "Cobweb3Node's dicts as the code keeps them, the accumulator in its own place; histories without the string '#ContinuousValue#' as a value (with it ifit raises, C98)."
  },
  {
   "property": "C106",
   "status": "proved",
   "theorems": [
    "CF.C106_covers",
    "CF.C106_tree",
    "CF.C106_counts",
    "CF.C106_rejected",
    "CF.C106_undisturbed",
    "CF.C106_queries",
    "CF.C106_fit_cobweb",
    "CF.C106_fit_cobweb3",
    "CF.C106_fit_trestle",
    "CF.C106_scales_witness"
   ],
   "note": "All sequences of calls are covered (C106_covers); the witness shows that a failed call is not without effect."
  },
  {
   "property": "C107",
   "status": "proved",
   "theorems": [
    "CF.C107_ifit_sorts",
    "CF.C107_every_tree_is_textbook",
    "CF.C107_every_textbook_tree",
    "CF.C107_ifit_sorts3",
    "CF.C107_every_tree_is_textbook3",
    "CF.C107_sorts_ifit3",
    "CF.C107_every_textbook_tree3",
    "CF.C107_ties_matter",
    "CF.C107_trestle",
    "CF.C107_trestle_ifit"
   ],
   "note": "The textbook algorithm is a relation on hierarchies of groups of instances; every tree of Cobweb and Cobweb/3 shows a hierarchy of the relation, and every hierarchy of the relation (instances with visible attributes) is reached with some random numbers from [0,1)."
  },
  {
   "property": "C108",
   "status": "proved",
   "theorems": [
    "CF.C108_categorize_places",
    "CF.C108_places_categorize",
    "CF.C108_categorize_places3",
    "CF.C108_places_categorize3",
    "CF.C108_trestle_categorize",
    "CF.C108_ties_matter"
   ],
   "note": "Both directions for Cobweb and Cobweb/3; for TRESTLE the soundness direction."
  },
  {
   "property": "C109",
   "status": "proved",
   "theorems": [
    "CF.C109_same",
    "CF.C109_two_best",
    "CF.C109_worth_it",
    "CF.C109_level",
    "CF.C109_cobweb",
    "CF.C109_categorize",
    "CF.C109_categorize_height",
    "CF.C109_height_log",
    "CF.C109_cost",
    "CF.C109_cost3",
    "CF.C109_fit",
    "CF.C109_record",
    "CF.C109_record_categorize"
   ],
   "note": "Costs are counted in evaluations of expected_correct_guesses (and squared probabilities per evaluation for nominal tables); copying of tables and sorting are not counted."
  },
  {
   "property": "C11",
   "status": "proved",
   "theorems": [
    "CF.C11_relative_cu",
    "CF.C11_two_best"
   ],
   "note": "Exact rational arithmetic."
  },
  {
   "property": "C110",
   "status": "proved",
   "theorems": [
    "CF.C110_recognised",
    "CF.C110_both_return",
    "CF.C110_predicted",
    "CF.C110_forgotten",
    "CF.C110_order_matters",
    "CF.C110_two_leaves",
    "CF.reach_listed",
    "CF.categorize_listed",
    "CF.C110_recognised3",
    "CF.C110_both_return3",
    "CF.C110_trestle",
    "CF.C110_trestle_flat"
   ],
   "note": "For instances with the same visible attributes, as stated; the counterexamples are over all outcomes of ties, by reach_listed and categorize_listed."
  },
  {
   "property": "C111",
   "status": "proved",
   "theorems": [
    "CF.C111_writes",
    "CF.C111_in_place",
    "CF.C111_text",
    "CF.C111_none_writes",
    "CF.C111_raises",
    "CF.C111_raises_none",
    "CF.C111_emptied",
    "CF.C111_emptied_in",
    "CF.C111_same_file",
    "CF.C111_last",
    "CF.C111_one_page",
    "CF.C111_incomplete",
    "CF.C111_visualize",
    "CF.C111_no_leaves",
    "CF.C111_clusters",
    "CF.C111_no_clusters"
   ],
   "note": "Model/VizFiles.lean. json.dumps is a parameter that may raise; clusters given as concepts are ignored (C61_concepts_ignored)."
  },
  {
   "property": "C112",
   "status": "proved",
   "theorems": [
    "CF.C112_reaches",
    "CF.C112_reachable",
    "CF.C112_steps",
    "CF.C112_not_reached",
    "CF.C112_single",
    "CF.C112_cost",
    "CF.C112_extend",
    "CF.C112_enough",
    "CF.C112_trestle",
    "CF.C112_stuck",
    "CF.C112_stays",
    "CF.C112_numbers"
   ],
   "note": "The statement includes its limits: C112_stuck and C112_stays are the witness that a local optimum need not be the cheapest mapping, C112_numbers that mapping more can cost more with numbers."
  },
  {
   "property": "C113",
   "status": "proved",
   "theorems": [
    "CF.C113_store_json",
    "CF.C113_too_deep",
    "CF.C113_json_ok",
    "CF.C113_names",
    "CF.C113_other_names",
    "CF.C113_not_offered",
    "CF.C113_written",
    "CF.C113_no_data",
    "CF.C113_cut_off",
    "CF.C113_returns"
   ],
   "note": "The loaders are parameters; load_mushroom has no file in the package (read)."
  },
  {
   "property": "C114",
   "status": "proved",
   "theorems": [
    "CF.C114_num_concepts",
    "CF.C114_pretty_print",
    "CF.C114_str",
    "CF.C114_output_json",
    "CF.C114_fitted",
    "CF.C114_fitted_cobweb3",
    "CF.C114_recursion_error",
    "CF.C114_cycle"
   ],
   "note": "For every store, without assuming that it comes from fitting; calls of the built-in str are not counted as nested calls."
  },
  {
   "property": "C115",
   "status": "proved",
   "theorems": [
    "CF.C115_one_concept",
    "CF.C115_one_concept_cobweb3",
    "CF.C115_one_concept_trestle",
    "CF.C115_hidden_only",
    "CF.C115_same_again",
    "CF.C115_first_difference",
    "CF.C115_same_again_cobweb3",
    "CF.C115_first_difference_cobweb3",
    "CF.C115_any_arithmetic",
    "CF.C115_float",
    "CF.C115_all_floats",
    "CF.C115_third_infinity"
   ],
   "note": "Equivalence between the shape of the tree and the history, for every history: in exact arithmetic, in rounded arithmetic, and for all Python floats with the exact condition on infinities."
  },
  {
   "property": "C116",
   "status": "proved",
   "theorems": [
    "CF.C116_continuous_values",
    "CF.C116_concepts",
    "CF.C116_not_one_entry",
    "CF.C116_set"
   ],
   "note": "The docstring of ContinuousValue.__hash__ is refuted by C116_not_one_entry."
  },
  {
   "property": "C117",
   "status": "proved",
   "theorems": [
    "CF.C117_leaf_predicts",
    "CF.C117_infer",
    "CF.C117_infinity_lost",
    "CF.C117_predict_defined",
    "CF.C117_infer_defined",
    "CF.C117_predict_most_likely",
    "CF.C117_infer_all"
   ],
   "note": "With the default choice function. The random numbers drawn are assumed different where a prediction is shown not to raise."
  },
  {
   "property": "C12",
   "status": "proved",
   "theorems": [
    "CF.C12_best_operation",
    "CF.C12_no_best_child",
    "CF.C12_ties"
   ],
   "note": "For any node class and any tables, not only reachable ones."
  },
  {
   "property": "C13",
   "status": "proved",
   "theorems": [
    "CF.C13_scores_are_real",
    "CF.C13_prediction_comes_true"
   ],
   "note": "Both for the operations as functions and for what ifit really does at the root."
  },
  {
   "property": "C14",
   "status": "proved",
   "theorems": [
    "CF.C14_category_utility_range"
   ],
   "note": "Stated for every node where category_utility is defined; it is defined everywhere when the fitted instances have visible attributes."
  },
  {
   "property": "C15",
   "status": "proved",
   "theorems": [
    "CF.C15_ecg_range"
   ],
   "note": ""
  },
  {
   "property": "C16",
   "status": "partial",
   "theorems": [
    "CF.C16_distribution_partial",
    "CF.C16_empty_tree_raises"
   ],
   "note": "Proved for every tree fitted at least once; on the empty tree the claim is false in the code (probability(attr, None) divides by count 0), which is proved."
  },
  {
   "property": "C17",
   "status": "proved",
   "theorems": [
    "CF.C17_most_likely",
    "CF.C17_most_likely_total",
    "CF.C17_sampled",
    "CF.C17_edge_cases"
   ],
   "note": "The measure statement is given as the exact interval of draws that select each candidate."
  },
  {
   "property": "C18",
   "status": "proved",
   "theorems": [
    "CF.C18_infer_missing",
    "CF.C18_infer_missing_total"
   ],
   "note": "Includes a totality theorem under the conditions of C07."
  },
  {
   "property": "C19",
   "status": "proved",
   "theorems": [
    "CF.C19_hidden_irrelevant",
    "CF.C19_hidden_irrelevant_categorize"
   ],
   "note": "CobwebTree: sequences of ifit calls (and a final categorize) on instances that differ only in hidden attributes behave alike: same exceptions, or same shape, ids, visible tables, returned concepts and random draws. Cobweb3Tree: see C64."
  },
  {
   "property": "C20",
   "status": "proved",
   "theorems": [
    "CF.C20_log_likelihood_nonpos",
    "CF.C20_log_likelihood_value",
    "CF.C20_log_of_zero"
   ],
   "note": "Over the reals with Real.log; also gives the exact value for leaves. C20_log_of_zero: for concepts that are not nested the call returns exactly when everything that occurs in the one occurs in the other, and otherwise takes the logarithm of 0."
  },
  {
   "property": "C21",
   "status": "proved",
   "theorems": [
    "CF.C21_output_json",
    "CF.C21_names_distinct"
   ],
   "note": ""
  },
  {
   "property": "C22",
   "status": "proved",
   "theorems": [
    "CF.C22_links",
    "CF.C22_links_cobweb3"
   ],
   "note": "LinksOk (Spec/Heap.lean) lists all parts of the property; proved for every reachable store of CobwebTree and Cobweb3Tree."
  },
  {
   "property": "C23",
   "status": "proved",
   "theorems": [
    "CF.C23_check",
    "CF.C23_rejected_no_effect",
    "CF.C23_accepted"
   ],
   "note": "Raw instances are dicts of Python objects (Py/Obj.lean). The error message construction (str of the objects) is not modelled."
  },
  {
   "property": "C24",
   "status": "proved",
   "theorems": [
    "CF.C24_renaming",
    "CF.C24_renaming_categorize"
   ],
   "note": "CobwebTree: injective renaming of attributes (keeping the hidden ones hidden) and of the values of each attribute, with the keys of the instances in any order. Cobweb3Tree: see C65."
  },
  {
   "property": "C25",
   "status": "proved",
   "theorems": [
    "CF.C25_update_batch",
    "CF.C25_order_independent",
    "CF.C25_biased_std"
   ],
   "note": "Exact arithmetic (real numbers / any ordered field)."
  },
  {
   "property": "C26",
   "status": "proved",
   "theorems": [
    "CF.C26_combine",
    "CF.C26_comm",
    "CF.C26_assoc",
    "CF.C26_neutral",
    "CF.C26_both_empty"
   ],
   "note": "Exact arithmetic. Two empty accumulators raise ZeroDivisionError, as the property says."
  },
  {
   "property": "C27",
   "status": "proved",
   "theorems": [
    "CF.C27_unbiased_std",
    "CF.C27_value",
    "CF.C27_affine",
    "CF.C27_scaled",
    "CF.C27_unscaled"
   ],
   "note": "Exact arithmetic; c4 is the code's table/formula."
  },
  {
   "property": "C28",
   "status": "proved",
   "theorems": [
    "CF.C28_gaussian_overlap",
    "CF.C28_is_integral"
   ],
   "note": "Exact arithmetic; the value is shown to be the integral of the product of the two normal densities."
  },
  {
   "property": "C29",
   "status": "proved",
   "theorems": [
    "CF.C29_every_node",
    "CF.C29_order_independent",
    "CF.C29_counts_conserved",
    "CF.C29_leaves_partition",
    "CF.C29_at_least_two_children",
    "CF.C29_ifit_returns_matching_leaf",
    "CF.C29_ids_unique",
    "CF.C29_combine_never_raises"
   ],
   "note": "Mixed instances, arbitrary random draws; numbers are real numbers."
  },
  {
   "property": "C30",
   "status": "proved",
   "theorems": [
    "CF.C30_ecg_range",
    "CF.C30_ecg_value"
   ],
   "note": "Real arithmetic; the closed form is stated against ecgSpec3."
  },
  {
   "property": "C31",
   "status": "proved",
   "theorems": [
    "CF.C31_nominal",
    "CF.C31_nominal_categorize"
   ],
   "note": "Any scaling settings of Cobweb3Tree. Scores are rational in the one class and real in the other; the comparison is exact."
  },
  {
   "property": "C32",
   "status": "proved",
   "theorems": [
    "CF.C32_units"
   ],
   "note": "For positive scaling and ifit. (A negative scaling makes the code use the unit 1; categorize of unseen numbers under a scale without spread is not covered, as the code then uses the unit 1 too.)"
  },
  {
   "property": "C33",
   "status": "partial",
   "theorems": [
    "CF.C33_probability_range_partial",
    "CF.C33_probability_value",
    "CF.C33_empty_tree_raises",
    "CF.C33_predict_most_likely",
    "CF.C33_predict_total",
    "CF.C33_predict_mean_partial",
    "CF.C33_predict_none",
    "CF.C33_predict_sampled"
   ],
   "note": "The range holds on every tree fitted at least once; on an empty tree probability(attr, None) raises (proved). The mean is predicted unless None is allowed and at least as likely, or nominal values are recorded too; a counterexample is proved. A sampled prediction is one of the outcomes with positive probability, or a draw around the mean with the unbiased deviation."
  },
  {
   "property": "C34",
   "status": "proved",
   "theorems": [
    "CF.C34_scales_summarise",
    "CF.C34_clear"
   ],
   "note": ""
  },
  {
   "property": "C35",
   "status": "proved",
   "theorems": [
    "CF.C35_bad_arguments",
    "CF.C35_unknown_heuristic",
    "CF.C35_yields",
    "CF.C35_never_raises",
    "CF.C35_yields_cobweb3",
    "CF.C35_never_raises_cobweb3"
   ],
   "note": ""
  },
  {
   "property": "C36",
   "status": "proved",
   "theorems": [
    "CF.C36_equal_labels_stay",
    "CF.C36_one_cluster_split",
    "CF.C35_yields",
    "CF.C35_yields_cobweb3"
   ],
   "note": "Stated on IterOk, which C35_yields and C35_yields_cobweb3 establish for every CobwebTree and Cobweb3Tree."
  },
  {
   "property": "C37",
   "status": "partial",
   "theorems": [
    "CF.C37_nothing_is_yielded",
    "CF.C37_docstring_false",
    "CF.C37_maxsplit_cuts_partial"
   ],
   "note": "The docstring is wrong: cluster_iter with minsplit >= 2 yields nothing (cluster.py:434-465 computes the assignment only in the rounds that yield). Proved: the negation, and that a smaller maxsplit cuts the sequence off."
  },
  {
   "property": "C38",
   "status": "partial",
   "theorems": [
    "CF.C38_k_cluster_raises",
    "CF.C38_k_cluster_type_error",
    "CF.C38_bad_k_partial"
   ],
   "note": "k_cluster never returns: it builds the set of a yielded tuple that contains a list (cluster.py:84), a TypeError. Proved: the negation, and the ValueError for k < 2."
  },
  {
   "property": "C39",
   "status": "proved",
   "theorems": [
    "CF.C39_first_minimal"
   ],
   "note": ""
  },
  {
   "property": "C40",
   "status": "proved",
   "theorems": [
    "CF.C40_table",
    "CF.C40_never_raises",
    "CF.C40_table_cobweb3",
    "CF.C40_empty",
    "CF.C40_row_length",
    "CF.C40_rows",
    "CF.C40_first_row",
    "CF.C40_last_row",
    "CF.C40_nested"
   ],
   "note": ""
  },
  {
   "property": "C41",
   "status": "proved",
   "theorems": [
    "CF.C41_tables",
    "CF.C41_cu",
    "CF.C41_cu_empty",
    "CF.C41_aic",
    "CF.C41_bic",
    "CF.C41_bic_empty",
    "CF.C41_aicc",
    "CF.C41_tables_cobweb3",
    "CF.C41_cu_cobweb3",
    "CF.C41_aic_cobweb3",
    "CF.C41_bic_cobweb3",
    "CF.C41_aicc_cobweb3",
    "CF.C41_yielded",
    "CF.C41_yielded_cobweb3"
   ],
   "note": "Over the real numbers. The instances of a leaf count once per occurrence of the leaf in the list, as in the code. On a CobwebTree a nominal value equal to cv_key counts two parameters."
  },
  {
   "property": "C42",
   "status": "proved",
   "theorems": [
    "CF.C42_interval",
    "CF.C42_selects",
    "CF.C42_draw",
    "CF.C42_errors",
    "CF.C42_boundary"
   ],
   "note": ""
  },
  {
   "property": "C43",
   "status": "proved",
   "theorems": [
    "CF.C43_maximal",
    "CF.C43_error_iff",
    "CF.C43_ok"
   ],
   "note": "Equal (probability, random) keys make Python compare the values; that comparison is an arbitrary parameter assumed to return a maximal entry or raise."
  },
  {
   "property": "C44",
   "status": "proved",
   "theorems": [
    "CF.C44_mean",
    "CF.C44_std",
    "CF.C44_empty",
    "CF.C44_c4"
   ],
   "note": ""
  },
  {
   "property": "C45",
   "status": "partial",
   "theorems": [
    "CF.C45_pipeline_partial",
    "CF.C45_stages",
    "CF.C45_pipeline_stateless",
    "CF.C45_batch",
    "CF.C45_same_object"
   ],
   "note": "Proved for any number of stages, any equivalence of results and any state, when the stages are different objects, and for arbitrary lists of stages that keep no state. False when one object with state is used twice (C45_same_object: the same NameStandardizer twice)."
  },
  {
   "property": "C46",
   "status": "partial",
   "theorems": [
    "CF.C46_reads_partial",
    "CF.C46_writes",
    "CF.C46_unambiguous",
    "CF.C46_roundtrip_partial",
    "CF.C46_undoes",
    "CF.C46_nested_head",
    "CF.C46_number",
    "CF.C46_two_spaces",
    "CF.C46_tuple_attribute",
    "CF.C46_outcome",
    "CF.C46_unclosed",
    "CF.C46_others"
   ],
   "note": "Proved for relations of any depth and arity whose first element is a name. A relation whose first element is a relation raises IndexError (C46_nested_head)."
  },
  {
   "property": "C47",
   "status": "partial",
   "theorems": [
    "CF.C47_flatten",
    "CF.C47_roundtrip",
    "CF.C47_undoes",
    "CF.C47_strings",
    "CF.C47_hidden_partial",
    "CF.C47_hidden_component"
   ],
   "note": "Round trip, names determined by paths and absence of dictionary values proved for all structured instances. The claim that attributes inside hidden components stay hidden is false (C47_hidden_component)."
  },
  {
   "property": "C48",
   "status": "partial",
   "theorems": [
    "CF.C48_renames_apart",
    "CF.C48_apart",
    "CF.C48_names",
    "CF.C48_undo_partial",
    "CF.C48_roundtrip_partial",
    "CF.C48_undo_fails",
    "CF.C48_relation_type_error"
   ],
   "note": "Renaming apart proved in full: any instance whose relations are built of strings, any state of the supply, any set order. Undo proved when variables stand for components or lists and relations with variables have other values; otherwise undo does not restore (C48_undo_fails)."
  },
  {
   "property": "C49",
   "status": "partial",
   "theorems": [
    "CF.C49_flat",
    "CF.C49_roundtrip_partial",
    "CF.C49_undoes",
    "CF.C49_rooted_needed",
    "CF.C49_split_needed",
    "CF.C49_split_endless"
   ],
   "note": "Exact round trip and exact result of the extraction proved for distinct object names when a path with a variable starts with a variable and no outermost component is named '??'. Both conditions are needed (counterexamples). Recursion depth is a fuel parameter bounded by the depth of the names."
  },
  {
   "property": "C50",
   "status": "partial",
   "theorems": [
    "CF.C50_extract",
    "CF.C50_relations",
    "CF.C50_roundtrip_partial",
    "CF.C50_names",
    "CF.C50_empty",
    "CF.C50_val",
    "CF.C50_hidden",
    "CF.C50_name_clash",
    "CF.C50_repeated",
    "CF.C50_pair"
   ],
   "note": "Round trip of ExtractListElements, of ListsToRelations and of the two in sequence, for lists of any length and nesting and any order of the dict entries, under conditions that exclude what the code does not restore: empty lists, elements with an attribute val, hidden lists, attributes equal to generated names, lists at attributes that are pairs. Each exclusion is shown necessary by a concrete instance."
  },
  {
   "property": "C51",
   "status": "partial",
   "theorems": [
    "CF.C51_nominal",
    "CF.C51_no_number",
    "CF.C51_nominal_idempotent",
    "CF.C51_numeric",
    "CF.C51_only_numbers",
    "CF.C51_raises_partial",
    "CF.C51_exception",
    "CF.C51_component_type_error"
   ],
   "note": "Everything holds except that on_fail does not decide about targeted values that are neither strings nor numbers: they raise TypeError (C51_component_type_error)."
  },
  {
   "property": "C52",
   "status": "partial",
   "theorems": [
    "CF.C52_trestle_partial",
    "CF.C52_cobweb_partial",
    "CF.C52_idempotent",
    "CF.C52_sane",
    "CF.C52_sane_flat",
    "CF.C52_empty_name",
    "CF.C52_unhashable_tuple",
    "CF.C52_none",
    "CF.C52_spec_case",
    "CF.C52_spec"
   ],
   "note": "Idempotence for every dict. Acceptance fails for empty names, None values and tuples with unhashable elements, and for specs written in capitals."
  },
  {
   "property": "C53",
   "status": "partial",
   "theorems": [
    "CF.C53_marks_partial",
    "CF.C53_all",
    "CF.C53_relations_stale",
    "CF.C53_not_inside",
    "CF.C53_clash",
    "CF.C53_raises"
   ],
   "note": "Exactly the targeted components are marked and values kept; relations are not renamed (C53_relations_stale) and components inside untargeted ones are not visited (C53_not_inside)."
  },
  {
   "property": "C54",
   "status": "proved",
   "theorems": [
    "CF.C54_roundtrip",
    "CF.C54_undoes",
    "CF.C54_renames",
    "CF.C54_collision",
    "CF.C54_get_mapping",
    "CF.C54_user_not_injective"
   ],
   "note": "For every target, base and outcome of the two search procedures (the Hungarian assignment and the hill climbing are arbitrary functions, only required to return an assignment / a state reached by successor steps). When a target variable occurs in the base, flat_match raises (C54_collision). An initial_mapping given by the caller has to be injective on what it keeps: C54_user_not_injective shows the round trip failing otherwise."
  },
  {
   "property": "C55",
   "status": "proved",
   "theorems": [
    "CF.C55_search_states",
    "CF.C55_flat_match",
    "CF.C55_user"
   ],
   "note": "Every assignment, every sequence of successor and random_successor steps; C55_flat_match states it for the mapping flat_match returns, C55_user with a mapping given by the caller."
  },
  {
   "property": "C56",
   "status": "proved",
   "theorems": [
    "CF.C56_names_known",
    "CF.C56_disjoint",
    "CF.C56_no_collision"
   ],
   "note": "TrestleAny covers any sequence of ifit, categorize and infer_missing calls on any instances (dicts without repeated keys), with any outcome of the external search (py_search, munkres) and whether calls return or raise. C56_disjoint: the variables of the instance given to the structure mapper do not occur in the root's table. C56_no_collision: flat_match's collision exception is never raised."
  },
  {
   "property": "C57",
   "status": "proved",
   "theorems": [
    "CF.C57_tree",
    "CF.C57_every_node",
    "CF.C57_counts_conserved",
    "CF.C57_leaves_partition",
    "CF.C57_shape",
    "CF.C57_ifit_returns_leaf"
   ],
   "note": "C01-C05 for the store of a TrestleTree with respect to the preprocessed instances, for any search outcome, and any interleaving with categorize, infer_missing and ifit calls that reject the instance. Runs in which the fitting itself raises (no visible attributes) are not included; C71 says when this cannot happen."
  },
  {
   "property": "C58",
   "status": "partial",
   "theorems": [
    "CF.C58_one_node",
    "CF.C58_categorize",
    "CF.C58_ifit",
    "CF.C58_summarizes_partial",
    "CF.C58_overall_distribution",
    "CF.C58_ifit_returns",
    "CF.C58_failed_call_counts",
    "CF.C58_mapping_collision"
   ],
   "note": "Whatever calls are made (with or without mapping, failing or not) the tree stays one node without children, its creation counter does not move and every categorize and successful ifit returns the root. After successful calls the root holds exactly the table of the preprocessed instances, so its probabilities are the overall distribution. Partial because the unrestricted statement is false: a call that fails in the middle has already counted (C58_failed_call_counts), and a call with mapping may be refused after one without (C58_mapping_collision)."
  },
  {
   "property": "C59",
   "status": "partial",
   "theorems": [
    "CF.C59_table_partial",
    "CF.C59_row_length",
    "CF.C59_row_too_long",
    "CF.C59_fitted_cobweb",
    "CF.C59_fitted_cobweb3",
    "CF.C59_fitted_trestle",
    "CF.C59_fitted_dummy",
    "CF.C59_first_missing_raises"
   ],
   "note": "The result has one row for every run, with one score for each evaluated position, each score computed from a tree fitted to exactly the earlier instances of that run, for all four trees. Rows have length min(run_length + 1, n - 1): one longer than run_length (C59_row_too_long), hence partial. C59_first_missing_raises: an instance without the target on an empty tree raises."
  },
  {
   "property": "C60",
   "status": "proved",
   "theorems": [
    "CF.C60_target_hidden",
    "CF.C60_error",
    "CF.C60_nominal",
    "CF.C60_absolute_squared",
    "CF.C60_scores_keep"
   ],
   "note": "The scoring functions see a copy without the target; they do not change the tree."
  },
  {
   "property": "C61",
   "status": "partial",
   "theorems": [
    "CF.C61_visualize",
    "CF.C61_no_leaves",
    "CF.C61_trim_leaves",
    "CF.C61_labels_partial",
    "CF.C61_concepts_ignored",
    "CF.C61_concepts_not_cut",
    "CF.C61_no_clusters",
    "CF.C61_mixed",
    "CF.C61_concepts_after_label"
   ],
   "note": "_trim_leaves removes exactly the leaves, repeated cuts exactly the lower levels, and clusters given by labels cut the tree exactly there. Clusters given as concepts have no effect (C61_concepts_ignored, C61_concepts_not_cut): the code compares the id with the name."
  },
  {
   "property": "C62",
   "status": "partial",
   "theorems": [
    "CF.C62_all",
    "CF.C62_exceeds",
    "CF.C62_first_partial",
    "CF.C62_one_too_many",
    "CF.C62_prefix",
    "CF.C62_quadruped",
    "CF.C62_rows",
    "CF.C62_rows_unterminated",
    "CF.C62_any_file",
    "CF.C62_loader",
    "CF.C62_missing",
    "CF.C62_own_file",
    "CF.C62_beginning",
    "CF.C62_negative",
    "CF.C62_bad_line",
    "CF.C62_human_predictions",
    "CF.C62_files_in_repo"
   ],
   "note": "For every file in the format of the data files, of any length. None or a number of at least the length of the file gives all; a smaller number n gives the first n + 1, not n (C62_one_too_many), hence partial. load_quadruped gives exactly n."
  },
  {
   "property": "C63",
   "status": "proved",
   "theorems": [
    "CF.C63_terminates",
    "CF.C63_ifit_never_raises",
    "CF.C63_categorize_never_raises",
    "CF.C63_ifit_raises_iff",
    "CF.C63_categorize_raises_iff"
   ],
   "note": "Instances without a visible attribute raise, see C07."
  },
  {
   "property": "C64",
   "status": "partial",
   "theorems": [
    "CF.C64_hidden_irrelevant_partial",
    "CF.C64_hidden_irrelevant_categorize_partial",
    "CF.C64_shared_scale_matters"
   ],
   "note": "Proved when scaling is off or no hidden attribute shares its inner name with a visible one. False otherwise: C64_shared_scale_matters gives two histories with the same visible data whose roots have different scores."
  },
  {
   "property": "C65",
   "status": "proved",
   "theorems": [
    "CF.C65_renaming",
    "CF.C65_renaming_categorize"
   ],
   "note": "Any scaling setting."
  },
  {
   "property": "C66",
   "status": "proved",
   "theorems": [
    "CF.C66_store_is_tree",
    "CF.C66_store_is_tree_cobweb3",
    "CF.C66_ifit_agrees",
    "CF.C66_ifit_agrees_cobweb3",
    "CF.C66_tree_has_store",
    "CF.C66_tree_has_store_cobweb3",
    "CF.C66_same_trees_cobweb3",
    "CF.C66_same_trees"
   ],
   "note": "Refinement between the statement-by-statement store model and the tree model on which the other theorems are proved."
  },
  {
   "property": "C67",
   "status": "partial",
   "theorems": [
    "CF.C67_copy_partial",
    "CF.C67_copy_links_broken"
   ],
   "note": "The copy is fresh and has the same tables and shape, but the copied children keep the original node as parent (cobweb.py:306, 311-312); proved. The only call in the tree algorithm copies a leaf, so the algorithm is not affected."
  },
  {
   "property": "C68",
   "status": "proved",
   "theorems": [
    "CF.C68_log_likelihood_nonpos",
    "CF.C68_log_likelihood_value",
    "CF.C68_raises_iff"
   ],
   "note": ""
  },
  {
   "property": "C69",
   "status": "proved",
   "theorems": [
    "CF.C69_best_is_split",
    "CF.C35_yields",
    "CF.C35_yields_cobweb3"
   ],
   "note": "Stated on IterOk; the heuristic is assumed to leave existing objects alone, which is proved of the built-in ones."
  },
  {
   "property": "C70",
   "status": "proved",
   "theorems": [
    "CF.C70_leaf_stays",
    "CF.C70_leaf_stays_cobweb3"
   ],
   "note": ""
  },
  {
   "property": "C71",
   "status": "proved",
   "theorems": [
    "CF.C71_prep",
    "CF.C71_ifit_never_raises",
    "CF.C71_categorize_never_raises",
    "CF.C71_histories"
   ],
   "note": "The conditions on the instance are FitInst and VisInst (Spec/Trestle.lean). The external search is assumed to return (SearchTotal) an assignment and a state reachable by its successor functions (SearchLaws)."
  },
  {
   "property": "C72",
   "status": "proved",
   "theorems": [
    "CF.C72_size",
    "CF.C72_size_cobweb3",
    "CF.C72_size_trestle"
   ],
   "note": "Bounds on leaves, concepts and height, and a leaf for each visibly different instance, for the three trees."
  },
  {
   "property": "C73",
   "status": "partial",
   "theorems": [
    "CF.C73_contains",
    "CF.C73_all_names",
    "CF.C73_variables",
    "CF.C73_bind",
    "CF.C73_bind_rename",
    "CF.C73_bind_string",
    "CF.C73_match_returns",
    "CF.C73_match_complete",
    "CF.C73_match_sound_partial",
    "CF.C73_match_inconsistent",
    "CF.C73_match_classes"
   ],
   "note": "is_partial_match also says True when one unmapped variable is matched with two different ones (C73_match_inconsistent); otherwise it is exact.  bind_flat_attr turns a string into a tuple of characters (C73_bind_string)."
  },
  {
   "property": "C74",
   "status": "partial",
   "theorems": [
    "CF.C74_cost",
    "CF.C74_range",
    "CF.C74_raises",
    "CF.C74_trestle",
    "CF.C74_table_count",
    "CF.C74_table_partial",
    "CF.C74_table_count_low"
   ],
   "note": "Proved for instances.  For probability tables it holds if some attribute occurs in all instances of the table; otherwise the count is too low (C74_table_count_low).  Raises without a visible attribute (C74_raises)."
  },
  {
   "property": "C75",
   "status": "partial",
   "theorems": [
    "CF.C75_hungarian",
    "CF.C75_assignment",
    "CF.C75_trestle",
    "CF.C75_images",
    "CF.C75_never_unmaps",
    "CF.C75_random_in",
    "CF.C75_random_draw",
    "CF.C75_random_raises",
    "CF.C75_random_returns_partial"
   ],
   "note": "random_successor can raise; C75_random_raises gives the exact conditions.  Everything else is proved, for any function that satisfies the contract of Munkres' algorithm."
  },
  {
   "property": "C76",
   "status": "proved",
   "theorems": [
    "CF.C76_fit",
    "CF.C76_fit_cobweb",
    "CF.C76_fit_cobweb_never_raises",
    "CF.C76_fit_cobweb3",
    "CF.C76_fit_cobweb3_root",
    "CF.C76_fit_cobweb3_never_raises",
    "CF.C76_fit_trestle",
    "CF.C76_fit_trestle_count",
    "CF.C76_fit_trestle_never_raises"
   ],
   "note": "Holds for any ifit that keeps an invariant (C76_fit), hence for the three classes."
  },
  {
   "property": "C77",
   "status": "partial",
   "theorems": [
    "CF.C77_bellrand",
    "CF.C77_sizes",
    "CF.C77_kinds_apart",
    "CF.C77_body",
    "CF.C77_tail_behind_partial",
    "CF.C77_tail_in_torso",
    "CF.C77_returns",
    "CF.C77_well_formed",
    "CF.C77_fit",
    "CF.C77_posture"
   ],
   "note": "Everything but the place of the tail is proved; that is right for dogs and giraffes only (C77_tail_in_torso)."
  },
  {
   "property": "C78",
   "status": "proved",
   "theorems": [
    "CF.C78_text",
    "CF.C78_raises",
    "CF.C78_lines",
    "CF.C78_determines",
    "CF.C78_cobweb",
    "CF.C78_number",
    "CF.C78_cobweb3",
    "CF.C78_cobweb3_ambiguous"
   ],
   "note": "Model/Print.lean. The text of a Cobweb3Tree does not determine the tree (C78_cobweb3_ambiguous), since names and values are not escaped; the statement claims this only for CobwebTree. repr is a parameter with a law that pyRepr_laws shows for strings."
  },
  {
   "property": "C79",
   "status": "proved",
   "theorems": [
    "CF.C79_output_json",
    "CF.C79_root",
    "CF.C79_collision"
   ],
   "note": "Model/Json3.lean. C79_collision: without distinct texts an attribute disappears."
  },
  {
   "property": "C80",
   "status": "proved",
   "theorems": [
    "CF.C80_moving_average",
    "CF.C80_moving_zero",
    "CF.C80_avg_lines",
    "CF.C80_avg_raises",
    "CF.C80_avg_total"
   ],
   "note": "numpy arrays are lists of real numbers; the quantile of Student's distribution is a parameter."
  },
  {
   "property": "C81",
   "status": "proved",
   "theorems": [
    "CF.C81_lowess",
    "CF.C81_bounds",
    "CF.C81_no_bounds",
    "CF.C81_returns",
    "CF.C81_needs_points",
    "CF.C81_line",
    "CF.C81_line_raises",
    "CF.C81_local"
   ],
   "note": "C81_line_raises and C81_needs_points state what the code does where a regression would be expected to return."
  },
  {
   "property": "C82",
   "status": "proved",
   "theorems": [
    "CF.C82_ifit",
    "CF.C82_categorize",
    "CF.C82_fit",
    "CF.C82_same_concept"
   ],
   "note": "Flat: attributes are non-empty strings not starting with '?', values hashable and not None. On such instances everything a TrestleTree does is what a Cobweb3Tree does with the entries sorted."
  },
  {
   "property": "C83",
   "status": "proved",
   "theorems": [
    "CF.C83_infer_missing",
    "CF.C83_infer_missing_total"
   ],
   "note": ""
  },
  {
   "property": "C84",
   "status": "proved",
   "theorems": [
    "CF.C84_relative_cu",
    "CF.C84_two_best",
    "CF.C84_categorize_descends",
    "CF.C84_scores_are_real",
    "CF.C84_prediction_comes_true"
   ],
   "note": ""
  },
  {
   "property": "C85",
   "status": "partial",
   "theorems": [
    "CF.C85_category_utility_range_partial",
    "CF.C85_leaf_guesses",
    "CF.C85_negative_utility",
    "CF.C85_negative_on_reachable"
   ],
   "note": "The lower bound 0 is false, for tables (C85_negative_utility) and for reachable trees: after five instances with two numbers each, whatever the random numbers, some concept has a negative category utility (C85_negative_on_reachable). Proved: defined, strictly between -1/n and 1/n, 0 on leaves, guesses of leaves equal to 1."
  },
  {
   "property": "C86",
   "status": "partial",
   "theorems": [
    "CF.C86_infer_missing_partial",
    "CF.C86_infer_missing_total",
    "CF.C86_component_lost",
    "CF.C86_infer_raises",
    "CF.C86_object_moved",
    "CF.C86_no_none"
   ],
   "note": "Proved for instances and histories without components, relations and variables. With components it is false of the code: a predicted attribute replaces a component of the same name (C86_component_lost), a predicted component of a plain attribute raises TypeError (C86_infer_raises), a predicted has-component relation moves an object (C86_object_moved)."
  },
  {
   "property": "C87",
   "status": "proved",
   "theorems": [
    "CF.C87_cobweb_iff",
    "CF.C87_cobweb3_iff",
    "CF.C87_cobweb",
    "CF.C87_cobweb3",
    "CF.C87_trestle",
    "CF.C87_blind",
    "CF.C87_not_an_assertion"
   ],
   "note": "Both versions of the check, the exact condition under which they pass, and that they pass on all reachable trees. C87_blind and C87_not_an_assertion show what they miss."
  },
  {
   "property": "C88",
   "status": "proved",
   "theorems": [
    "CF.C88_miss",
    "CF.C88_range",
    "CF.C88_zero_iff",
    "CF.C88_perm",
    "CF.C88_raises_iff",
    "CF.C88_names_matter"
   ],
   "note": "Labels of clusters are any linearly ordered type."
  },
  {
   "property": "C89",
   "status": "partial",
   "theorems": [
    "CF.C89_data",
    "CF.C89_noise_free",
    "CF.C89_run",
    "CF.C89_round",
    "CF.C89_slip",
    "CF.C89_others_mix_partial",
    "CF.C89_values"
   ],
   "note": "Everything is proved but the last sentence, which fails: instances of the second group never get the first group's f1 (C89_slip), while the other two groups mix with all (C89_others_mix_partial). The random draws are arguments; attribute names and strings are constructors."
  },
  {
   "property": "C90",
   "status": "proved",
   "theorems": [
    "CF.C90_compute",
    "CF.C90_raises_iff",
    "CF.C90_order",
    "CF.C90_ecg_integral",
    "CF.C90_third_is_cobweb3"
   ],
   "note": "Exact real arithmetic."
  },
  {
   "property": "C91",
   "status": "proved",
   "theorems": [
    "CF.C91_mean_between",
    "CF.C91_std_defined",
    "CF.C91_constant",
    "CF.C91_counts",
    "CF.C91_unrounded"
   ],
   "note": "Any monotone rounding that fixes the floats of 53 bits and exponents from -1074; overflow is outside the model."
  },
  {
   "property": "C92",
   "status": "partial",
   "theorems": [
    "CF.C92_combine_defined_partial",
    "CF.C92_combine_error_partial",
    "CF.C92_copy_inexact",
    "CF.C92_underflow"
   ],
   "note": "The code does not have the rest: copying changes means and the deviation of constant samples (C92_copy_inexact), different values may have deviation 0 (C92_underflow)."
  },
  {
   "property": "C93",
   "status": "proved",
   "theorems": [
    "CF.C93_mean_error",
    "CF.C93_update_step",
    "CF.C93_combine_sq",
    "CF.C93_std_error",
    "CF.C93_biased_std_error",
    "CF.C93_scaled_std_error"
   ],
   "note": "Bounds hold for every rounding of the kind in C91; up to 2^53 values, no overflow."
  },
  {
   "property": "C94",
   "status": "proved",
   "theorems": [
    "CF.C94_exact",
    "CF.C94_of_exact",
    "CF.C94_tree",
    "CF.C94_leaves",
    "CF.C94_ifit",
    "CF.C94_terminates",
    "CF.C94_never_raises"
   ],
   "note": "The arithmetic is a parameter with no laws; sorting must be a permutation. Exact arithmetic is an instance."
  },
  {
   "property": "C95",
   "status": "proved",
   "theorems": [
    "CF.C95_unrounded",
    "CF.C95_every_node",
    "CF.C95_conserved",
    "CF.C95_leaves",
    "CF.C95_ifit",
    "CF.C95_scales",
    "CF.C95_never_raises",
    "CF.C95_term_le",
    "CF.C95_exceeds_one",
    "CF.C95_arith",
    "CF.C95_scores_floats"
   ],
   "note": "Every rounding; overflow, infinities and nan are outside the model. C95_exceeds_one refutes the docstring of expected_correct_guesses, C95_term_le bounds the excess."
  },
  {
   "property": "C96",
   "status": "proved",
   "theorems": [
    "CF.C96_scores",
    "CF.C96_scores_cobweb3"
   ],
   "note": ""
  },
  {
   "property": "C97",
   "status": "partial",
   "theorems": [
    "CF.C97_raises",
    "CF.C97_underflow",
    "CF.C97_overlap_positive",
    "CF.C97_defined_partial",
    "CF.C97_unrounded",
    "CF.C97_overlap_above_one",
    "CF.C97_positive"
   ],
   "note": "The full statement is false (C97_raises). C97_defined_partial needs the accumulators of the visible numeric attributes of the two concepts to be within 36 noisy deviations, deviations up to 2^20 and at most 2^53 instances; beyond 38.8 deviations the overlap is zero (C97_underflow)."
  },
  {
   "property": "C98",
   "status": "partial",
   "theorems": [
    "CF.C98_refines_partial",
    "CF.C98_probability_partial",
    "CF.C98_weighted_values",
    "CF.C98_copy_raises",
    "CF.C98_score_raises",
    "CF.C98_key_value_breaks",
    "CF.C98_then_number",
    "CF.C98_number_then"
   ],
   "note": "The full statement is false for the value #ContinuousValue#; proved for all sequences of instances without it"
  },
  {
   "property": "C99",
   "status": "partial",
   "theorems": [
    "CF.C99_every_node",
    "CF.C99_conserved",
    "CF.C99_leaves",
    "CF.C99_ifit",
    "CF.C99_scales",
    "CF.C99_never_raises_partial",
    "CF.C99_overflow_raises",
    "CF.C99_combine",
    "CF.C99_agrees",
    "CF.C99_term",
    "CF.C99_sort",
    "CF.C99_never_raises_sort_partial",
    "CF.C99_sort_order",
    "CF.C99_infinity_blinds",
    "CF.C99_score",
    "CF.C99_nan_unordered",
    "CF.C99_nan_sort"
   ],
   "note": "All floats: tree invariants for every input. That nothing raises is proved for finite numbers below 2^1023 and is false from 2^1023 on (C99_overflow_raises), so the bound is exact. The sort of the candidates may be any algorithm that compares (C99_sort)."
  }
 ]
}
{
 "claims": [
  {
   "property": "C01",
   "status": "proved",
   "theorems": [
    "Mbtk.ADTree.adtree_query_count_exact",
    "Mbtk.ADTree.adtree_query_count_pure",
    "Mbtk.ADTree.adtree_small_dataset_raises"
   ],
   "note": "Exact for every dataset with threshold <= rows; the excluded case is proved to raise TypeError."
  },
  {
   "property": "C02",
   "status": "proved",
   "theorems": [
    "Mbtk.ADTree.dynamic_adtree_session_correct",
    "Mbtk.ADTree.static_adtree_session_correct"
   ],
   "note": ""
  },
  {
   "property": "C03",
   "status": "proved",
   "theorems": [
    "Mbtk.ADTree.adtree_query_ratio"
   ],
   "note": ""
  },
  {
   "property": "C04",
   "status": "proved",
   "theorems": [
    "Mbtk.ADTree.adtree_make_pmf_exact",
    "Mbtk.ADTree.adtree_minus_one_is_lost",
    "Mbtk.ADTree.adtree_make_pmf_empty_raises"
   ],
   "note": ""
  },
  {
   "property": "C05",
   "status": "proved",
   "theorems": [
    "Mbtk.ADTree.adtree_make_pmf_exact"
   ],
   "note": "The total=1 and nonneg fields of IsFrequencyTable."
  },
  {
   "property": "C06",
   "status": "proved",
   "theorems": [
    "Mbtk.ADTree.adtree_reload_preserves_answers",
    "Mbtk.ADTree.dynamic_adtree_session_correct",
    "Mbtk.ADTree.static_adtree_session_correct"
   ],
   "note": ""
  },
  {
   "property": "C07",
   "status": "proved",
   "theorems": [
    "Mbtk.ADTree.adtree_construction_succeeds",
    "Mbtk.ADTree.adtree_empty_dataset_raises"
   ],
   "note": ""
  },
  {
   "property": "C08",
   "status": "proved",
   "theorems": [
    "Mbtk.ADTree.adtree_counters_exact"
   ],
   "note": ""
  },
  {
   "property": "C09",
   "status": "proved",
   "theorems": [
    "Mbtk.Graph.path_search_exact",
    "Mbtk.Graph.path_search_no_duplicates",
    "Mbtk.Graph.path_search_terminates",
    "Mbtk.Graph.network_paths_exact"
   ],
   "note": ""
  },
  {
   "property": "C10",
   "status": "proved",
   "theorems": [
    "Mbtk.Graph.path_searches_agree",
    "Mbtk.Graph.network_path_searches_agree",
    "Mbtk.Graph.path_searches_differ"
   ],
   "note": "Holds when the start node is a key of the dictionary; path_searches_differ shows what happens outside (equal ends; unknown start)."
  },
  {
   "property": "C11",
   "status": "proved",
   "theorems": [
    "Mbtk.Graph.finalize_graphs",
    "Mbtk.Graph.from_directed_graph_graphs",
    "Mbtk.Graph.undirected_view"
   ],
   "note": ""
  },
  {
   "property": "C12",
   "status": "proved",
   "theorems": [
    "Mbtk.Graph.d_separated_symmetric",
    "Mbtk.Graph.d_separated_set"
   ],
   "note": ""
  },
  {
   "property": "C13",
   "status": "partial",
   "theorems": [
    "Mbtk.Graph.d_separated_decides_partial",
    "Mbtk.Graph.d_separated_marginal",
    "Mbtk.Graph.d_separated_parent_closed",
    "Mbtk.Graph.d_separated_flat",
    "Mbtk.Graph.d_separated_shallow",
    "Mbtk.Graph.d_separated_answers",
    "Mbtk.Graph.d_separated_not_d_separation"
   ],
   "note": "The full claim is false of the code: d_separated_not_d_separation is a proved counterexample. The partial theorems give the conditioning sets for which it holds."
  },
  {
   "property": "C14",
   "status": "proved",
   "theorems": [
    "Mbtk.Graph.d_separated_false_connected",
    "Mbtk.Graph.d_separated_complete"
   ],
   "note": ""
  },
  {
   "property": "C15",
   "status": "proved",
   "theorems": [
    "Mbtk.Graph.adjacent_never_separated",
    "Mbtk.Graph.self_never_separated"
   ],
   "note": ""
  },
  {
   "property": "C51",
   "status": "partial",
   "theorems": [
    "Mbtk.Graph.path_cache_history_exact",
    "Mbtk.Graph.path_cache_transparent_partial",
    "Mbtk.Graph.path_cache_transparent",
    "Mbtk.Graph.path_cache_stale_after_reload"
   ],
   "note": "The answers are determined exactly for every history of queries and loads; the claim holds unless a pair is asked about both before and after a load, and is false then (proved witness)."
  },
  {
   "property": "C16",
   "status": "proved",
   "theorems": [
    "Mbtk.MB.iamb_well_formed"
   ],
   "note": ""
  },
  {
   "property": "C17",
   "status": "proved",
   "theorems": [
    "Mbtk.MB.iamb_finds_blanket"
   ],
   "note": ""
  },
  {
   "property": "C18",
   "status": "proved",
   "theorems": [
    "Mbtk.MB.iamb_exact_for_faithful_tests"
   ],
   "note": ""
  },
  {
   "property": "C19",
   "status": "proved",
   "theorems": [
    "Mbtk.MB.ipcmb_well_formed"
   ],
   "note": ""
  },
  {
   "property": "C20",
   "status": "partial",
   "theorems": [
    "Mbtk.MB.ipcmb_exact_partial",
    "Mbtk.MB.ipcmb_pc_exact",
    "Mbtk.MB.ipcmb_contains_blanket",
    "Mbtk.MB.ipcmb_shipped_pc_exact",
    "Mbtk.MB.ipcmb_shipped_contains_blanket",
    "Mbtk.MB.ipcmb_shipped_exact_shallow",
    "Mbtk.MB.ipcmb_shipped_not_exact"
   ],
   "note": "Exact for a test that decides d-separation, and for the shipped test on networks where no node with two parents has a grandchild; false in general for the shipped test (ipcmb_shipped_not_exact)."
  },
  {
   "property": "C21",
   "status": "proved",
   "theorems": [
    "Mbtk.MB.recognizePC_correct",
    "Mbtk.MB.recognizePC_neighbours"
   ],
   "note": ""
  },
  {
   "property": "C22",
   "status": "proved",
   "theorems": [
    "Mbtk.MB.setcache_lookup",
    "Mbtk.MB.setcache_order_insensitive"
   ],
   "note": ""
  },
  {
   "property": "C52",
   "status": "proved",
   "theorems": [
    "Mbtk.MB.iamb_finds_blanket_bn_heuristic",
    "Mbtk.MB.iamb_bn_heuristic_raises",
    "Mbtk.MB.Estimator.iamb_unconnected_raises"
   ],
   "note": ""
  },
  {
   "property": "C25",
   "status": "proved",
   "theorems": [
    "Mbtk.Stats.pmf_relative_frequency",
    "Mbtk.Stats.joint_unequal_raises",
    "Mbtk.Stats.joint_lazy_not_validated"
   ],
   "note": ""
  },
  {
   "property": "C26",
   "status": "proved",
   "theorems": [
    "Mbtk.Stats.sum_over_marginal",
    "Mbtk.Stats.sum_over_order_independent",
    "Mbtk.Stats.sum_over_single_raises"
   ],
   "note": ""
  },
  {
   "property": "C27",
   "status": "partial",
   "theorems": [
    "Mbtk.Stats.condition_on_exact_partial",
    "Mbtk.Stats.condition_on_items",
    "Mbtk.Stats.condition_on_single_unreachable"
   ],
   "note": "Exact for at least two remaining variables; for one remaining variable the claim is false of the code through p() (proved), while the stored entries are right."
  },
  {
   "property": "C28",
   "status": "proved",
   "theorems": [
    "Mbtk.Stats.flatten_leaves",
    "Mbtk.Stats.p_nesting_irrelevant"
   ],
   "note": ""
  },
  {
   "property": "C29",
   "status": "proved",
   "theorems": [
    "Mbtk.Stats.create_instances_list_length",
    "Mbtk.Stats.create_instances_list_exact",
    "Mbtk.Stats.create_instances_list_empty",
    "Mbtk.Stats.create_instances_list_zero_emitted"
   ],
   "note": ""
  },
  {
   "property": "C53",
   "status": "proved",
   "theorems": [
    "Mbtk.Stats.cpmf_conditional_frequency"
   ],
   "note": ""
  },
  {
   "property": "C30",
   "status": "proved",
   "theorems": [
    "Mbtk.Stats.mutual_information_exact",
    "Mbtk.Stats.conditional_mutual_information_exact",
    "Mbtk.Stats.cmi_calculator_exact",
    "Mbtk.Stats.cmi_properties",
    "Mbtk.Stats.g_properties",
    "Mbtk.Stats.integer_base_raises"
   ],
   "note": ""
  },
  {
   "property": "C31",
   "status": "proved",
   "theorems": [
    "Mbtk.Stats.g_tests_agree",
    "Mbtk.Stats.unoptimized_session",
    "Mbtk.Stats.adtree_session",
    "Mbtk.Stats.dcmi_session",
    "Mbtk.Stats.dcmi_structural_raises"
   ],
   "note": "dcMI accepts the unadjusted and the caching calculator only."
  },
  {
   "property": "C32",
   "status": "proved",
   "theorems": [
    "Mbtk.Stats.entropy_table_exact",
    "Mbtk.Stats.entropy_table_reload",
    "Mbtk.Stats.reload_without_cache_raises"
   ],
   "note": ""
  },
  {
   "property": "C33",
   "status": "proved",
   "theorems": [
    "Mbtk.Stats.structural_dof_exact",
    "Mbtk.Stats.structural_dof_properties",
    "Mbtk.Stats.cached_dof_transparent",
    "Mbtk.Stats.cached_dof_transparent_adtree"
   ],
   "note": ""
  },
  {
   "property": "C34",
   "status": "proved",
   "theorems": [
    "Mbtk.Stats.unoptimized_session",
    "Mbtk.Stats.adtree_session",
    "Mbtk.Stats.dcmi_session",
    "Mbtk.Stats.dsep_test_log"
   ],
   "note": ""
  },
  {
   "property": "C23",
   "status": "proved",
   "theorems": [
    "Mbtk.Stats.igt_selects_top",
    "Mbtk.Stats.igt_negative_Q"
   ],
   "note": ""
  },
  {
   "property": "C24",
   "status": "proved",
   "theorems": [
    "Mbtk.Stats.mi_binary_exact",
    "Mbtk.Stats.igt_binary_agrees",
    "Mbtk.Stats.mi_binary_not_binary"
   ],
   "note": ""
  },
  {
   "property": "C35",
   "status": "proved",
   "theorems": [
    "Mbtk.BN.sampling_order_topological",
    "Mbtk.BN.sampling_order_terminates_iff",
    "Mbtk.BN.sampling_order_cycle"
   ],
   "note": "For every network with unique names: the loop ends iff the parents are known and the graph is acyclic, and then the order is topological. Names are an arbitrary linear order."
  },
  {
   "property": "C36",
   "status": "proved",
   "theorems": [
    "Mbtk.BN.joint_pmf_is_chain_rule",
    "Mbtk.BN.joint_pmf_p",
    "Mbtk.BN.joint_pmf_single_variable_unreachable",
    "Mbtk.BN.finalize_twice_breaks_joint_pmf"
   ],
   "note": "Exact rationals. Findings: the PMF of a single-variable network cannot be queried; finalizing twice makes the recursion endless."
  },
  {
   "property": "C37",
   "status": "proved",
   "theorems": [
    "Mbtk.BN.partial_joint_is_marginal",
    "Mbtk.BN.partial_pmf_of_root_unreachable",
    "Mbtk.BN.partial_pmf_of_subnetwork_keyError"
   ],
   "note": "For every iteration order of sets. The single parentless variable is excluded in the statement and shown to fail in the code; so does asking a subnetwork for a partial PMF."
  },
  {
   "property": "C38",
   "status": "proved",
   "theorems": [
    "Mbtk.BN.sample_ok",
    "Mbtk.BN.sample_distribution",
    "Mbtk.BN.roll_beyond_total_is_typeError",
    "Mbtk.BN.zero_roll_selects_impossible_value",
    "Mbtk.BN.recursive_sample_attributeError"
   ],
   "note": "Per roll sequence (any ordered field) and in distribution (Lebesgue measure on the unit cube). Findings: rows summing below the roll raise TypeError; roll 0.0 selects a zero-probability first value; recursive sampling raises AttributeError."
  },
  {
   "property": "C39",
   "status": "proved",
   "theorems": [
    "Mbtk.Dataset.dataset_history_aligned",
    "Mbtk.Dataset.finalized_is_frozen",
    "Mbtk.Dataset.finalized_deletion_raises",
    "Mbtk.Dataset.finalize_unfinalize",
    "Mbtk.Dataset.delete_row_aligned",
    "Mbtk.Dataset.keep_rows_aligned",
    "Mbtk.Dataset.delete_columns_X_aligned",
    "Mbtk.Dataset.delete_columns_Y_aligned",
    "Mbtk.Dataset.delete_column_X_aligned",
    "Mbtk.Dataset.delete_column_Y_aligned",
    "Mbtk.Dataset.select_rows_aligned",
    "Mbtk.Dataset.select_columns_X_aligned",
    "Mbtk.Dataset.keep_rows_unsorted_misaligns",
    "Mbtk.Dataset.keep_rows_repeated_misshapen",
    "Mbtk.Dataset.keep_rows_out_of_range_corrupts",
    "Mbtk.Dataset.keep_rows_negative_corrupts",
    "Mbtk.Dataset.delete_columns_negative_corrupts",
    "Mbtk.Dataset.selected_from_final_cannot_delete"
   ],
   "note": "For meant arguments. keep_rows_*/delete_columns_* are proved counterexamples for the arguments the code accepts but mishandles."
  },
  {
   "property": "C40",
   "status": "proved",
   "theorems": [
    "Mbtk.Dataset.load_after_save",
    "Mbtk.Dataset.load_after_save_eq",
    "Mbtk.Dataset.save_not_final",
    "Mbtk.Dataset.labels_roundtrip_iff",
    "Mbtk.Dataset.datasetEq_iff",
    "Mbtk.Dataset.empty_last_label_lost",
    "Mbtk.Dataset.line_break_in_label_splits",
    "Mbtk.Dataset.load_into_final_stays_csr"
   ],
   "note": "Matrix Market files are modelled as holding the matrix exactly. Findings: an empty last label is lost, a line break splits a label, both silently; loading into a final object leaves it CSR."
  },
  {
   "property": "C41",
   "status": "proved",
   "theorems": [
    "Mbtk.Dataset.split_is_partition",
    "Mbtk.Dataset.train_rows_count",
    "Mbtk.Dataset.split_empty_raises",
    "Mbtk.Dataset.negative_fraction_accepted"
   ],
   "note": "fraction is an exact rational. Finding: a negative training fraction is accepted."
  },
  {
   "property": "C42",
   "status": "proved",
   "theorems": [
    "Mbtk.Dataset.trimming_exact",
    "Mbtk.Dataset.trimmed_within_thresholds"
   ],
   "note": "Shares are exact rationals."
  },
  {
   "property": "C49",
   "status": "proved",
   "theorems": [
    "Mbtk.Dataset.Rcv.rcv_matrix_exact",
    "Mbtk.Dataset.Rcv.missing_document_keyError",
    "Mbtk.Dataset.Rcv.duplicate_request_indexError",
    "Mbtk.Dataset.Rcv.unknown_feature_type_zeros",
    "Mbtk.Dataset.Rcv.filter_ids",
    "Mbtk.Dataset.Rcv.token_file_read_back"
   ],
   "note": "Findings: duplicate IDs raise IndexError; an unknown feature type silently yields zeros."
  },
  {
   "property": "C54",
   "status": "proved",
   "theorems": [
    "Mbtk.Dataset.crashed_first_save_detected",
    "Mbtk.Dataset.crashed_save_others_intact",
    "Mbtk.Dataset.crashed_overwrite_undetected"
   ],
   "note": "Crash points lie between whole-file writes. Finding: a crash while overwriting an existing dataset is not detected."
  },
  {
   "property": "C50",
   "status": "proved",
   "theorems": [
    "Mbtk.Dataset.Synth.synthetic_exact",
    "Mbtk.Dataset.Synth.synthetic_no_columns",
    "Mbtk.Dataset.Synth.probability_above_one_misshapen"
   ],
   "note": "Probabilities are exact rationals (float rounding of row_count*p not modelled). Finding: probability above 1 gives a misshapen dataset."
  },
  {
   "property": "C55",
   "status": "proved",
   "theorems": [
    "Mbtk.Dataset.Synth.source_reproducible",
    "Mbtk.Dataset.Synth.other_seed_reproducible",
    "Mbtk.Dataset.Synth.default_seed",
    "Mbtk.Dataset.Synth.configured_seed_not_reseeded"
   ],
   "note": "For an arbitrary generator. Finding: passing the configured seed explicitly on a later call does not reseed."
  },
  {
   "property": "C56",
   "status": "proved",
   "theorems": [
    "Mbtk.Dataset.Synth.sampled_dataset_exact",
    "Mbtk.Dataset.Synth.unknown_objective_valueError",
    "Mbtk.Dataset.Synth.no_samples_indexError"
   ],
   "note": "The instance matrix itself is the subject of C29 and C38."
  },
  {
   "property": "C43",
   "status": "proved",
   "theorems": [
    "Mbtk.Exp.is_locked_iff",
    "Mbtk.Exp.default_lock_names",
    "Mbtk.Exp.lock_spec",
    "Mbtk.Exp.lock_idempotent",
    "Mbtk.Exp.unlock_spec",
    "Mbtk.Exp.delete_locked_refused",
    "Mbtk.Exp.locked_folder_survives",
    "Mbtk.Exp.delete_unlocked",
    "Mbtk.Exp.base_delete_attributeError"
   ],
   "note": "File system modelled as a dictionary of paths. Finding: LockablePath itself refuses with AttributeError."
  },
  {
   "property": "C44",
   "status": "proved",
   "theorems": [
    "Mbtk.Exp.run_locked_refused",
    "Mbtk.Exp.run_changes_own_files_only",
    "Mbtk.Exp.run_success",
    "Mbtk.Exp.run_success_datapoints",
    "Mbtk.Exp.run_failure",
    "Mbtk.Exp.run_prep_failure",
    "Mbtk.Exp.crash_locked_complete",
    "Mbtk.Exp.pickle_failure_leaves_part",
    "Mbtk.Exp.other_lock_types_do_not_protect",
    "Mbtk.Exp.partial_run_locks_experiment"
   ],
   "note": "Findings: an unpicklable data point leaves a truncated file; locks of other types do not protect; a run of a part of the parameters locks the whole experiment."
  },
  {
   "property": "C45",
   "status": "proved",
   "theorems": [
    "Mbtk.Exp.delete_folder_ignores_siblings",
    "Mbtk.Exp.delete_folder_removes_locked_sibling",
    "Mbtk.Exp.delete_subfolder_removes_sibling_data",
    "Mbtk.Exp.delete_locks_subfolder_unlocks_all"
   ],
   "note": "What the code does is proved exactly; it is not what a user would want."
  },
  {
   "property": "C46",
   "status": "proved",
   "theorems": [
    "Mbtk.Exp.evaluation_counts",
    "Mbtk.Exp.evaluation_margins",
    "Mbtk.Exp.evaluation_lengths_differ",
    "Mbtk.Exp.evaluation_broadcasts"
   ],
   "note": ""
  },
  {
   "property": "C47",
   "status": "proved",
   "theorems": [
    "Mbtk.Exp.select_all",
    "Mbtk.Exp.select_single",
    "Mbtk.Exp.select_range",
    "Mbtk.Exp.select_contiguous",
    "Mbtk.Exp.select_negative",
    "Mbtk.Exp.select_ignores_rest"
   ],
   "note": "int() modelled for ASCII digits. Findings: -1 selects nothing, text after a second dash is ignored."
  },
  {
   "property": "C48",
   "status": "proved",
   "theorems": [
    "Mbtk.Struct.marginalize_column_exact",
    "Mbtk.Struct.marginalize_last_exact",
    "Mbtk.Struct.new_column_exact",
    "Mbtk.Struct.set_column_order_exact",
    "Mbtk.Struct.deduct_exact",
    "Mbtk.Struct.inPlace_of_sorted",
    "Mbtk.Struct.marginalize_removes_wrong_column",
    "Mbtk.Struct.partial_order_loses_counts",
    "Mbtk.Struct.get_exact"
   ],
   "note": "Finding: with unsorted columns marginalize_column removes the wrong column."
  },
  {
   "property": "C57",
   "status": "proved",
   "theorems": [
    "Mbtk.Exp.rerun_after_crashes",
    "Mbtk.Exp.crash_foreign_datapoints"
   ],
   "note": "The last attempt is assumed to complete; earlier ones are arbitrary."
  },
  {
   "property": "C58",
   "status": "proved",
   "theorems": [
    "Mbtk.Exp.Build.prepare_builds_then_loads",
    "Mbtk.Exp.Build.prepare_after_crashes",
    "Mbtk.Exp.Build.prepare_after_crashes_same",
    "Mbtk.Exp.Build.locked_before_build_never_built",
    "Mbtk.Exp.Build.unlocked_always_rebuilt",
    "Mbtk.Exp.Build.locked_without_folder_raises"
   ],
   "note": "Finding: a folder locked before it is built is never built."
  },
  {
   "property": "C59",
   "status": "proved",
   "theorems": [
    "Mbtk.Stats.flatten_exact",
    "Mbtk.Stats.flatten_idempotent",
    "Mbtk.Stats.same_key_iff_same_atoms",
    "Mbtk.Stats.key_of_atoms"
   ],
   "note": ""
  },
  {
   "property": "C60",
   "status": "proved",
   "theorems": [
    "Mbtk.Dataset.column_exact",
    "Mbtk.Dataset.column_by_label_exact",
    "Mbtk.Dataset.values_per_column_exact",
    "Mbtk.Dataset.variable_named",
    "Mbtk.Dataset.variable_stable",
    "Mbtk.Dataset.variable_of_final_exact",
    "Mbtk.Dataset.lazy_variable_misnamed"
   ],
   "note": "Finding: the variable of a dataset that is not final is loaded when first read, so its name and its data can belong to different columns."
  },
  {
   "property": "C61",
   "status": "proved",
   "theorems": [
    "Mbtk.MB.Pcmb.pcd_is_the_weakest",
    "Mbtk.MB.Pcmb.pcmb_outcome",
    "Mbtk.MB.Pcmb.pcmb_never_finds",
    "Mbtk.MB.Pcmb.pcmb_isolated_raises"
   ],
   "note": "The expected property (the result is the Markov boundary) is false; the theorems state exactly what the code does instead: KeyError, ValueError or the empty boundary, never a variable."
  },
  {
   "property": "C62",
   "status": "proved",
   "theorems": [
    "Mbtk.Bif.bif_read_exact",
    "Mbtk.Bif.bif_read_unambiguous",
    "Mbtk.Bif.bif_joint_probabilities",
    "Mbtk.Bif.bif_value_count_ignored"
   ],
   "note": "The grammar is modelled as the function from documents to parse trees; lark's parsing of text into trees is not modelled. float() and int() are arbitrary functions."
  },
  {
   "property": "C63",
   "status": "proved",
   "theorems": [
    "Mbtk.Bif.bif_cache_genuine",
    "Mbtk.Bif.bif_cache_transparent",
    "Mbtk.Bif.bif_uncached_is_current",
    "Mbtk.Bif.bif_uncached_refreshes",
    "Mbtk.Bif.bif_cache_stale",
    "Mbtk.Bif.bif_crash_blocks_cache"
   ],
   "note": "Findings: the cache is never invalidated when the file changes; a crash while writing it makes all later cached reads raise."
  },
  {
   "property": "C64",
   "status": "proved",
   "theorems": [
    "Mbtk.CiResult.diff_iff_eq",
    "Mbtk.CiResult.eq_symmetric",
    "Mbtk.CiResult.eq_reflexive",
    "Mbtk.CiResult.eq_sound",
    "Mbtk.CiResult.eq_fresh_raises",
    "Mbtk.CiResult.verdict_consistent",
    "Mbtk.CiResult.last_decision",
    "Mbtk.CiResult.accurate_exact",
    "Mbtk.CiResult.repr_exact",
    "Mbtk.CiResult.variables_exact",
    "Mbtk.CiResult.insufficient_equal",
    "Mbtk.CiResult.order_counts",
    "Mbtk.CiResult.unnamed_differs",
    "Mbtk.CiResult.eq_not_transitive",
    "Mbtk.CiResult.eq_exact",
    "Mbtk.CiResult.tolerance_kept"
   ],
   "note": "Findings: == on a new result raises TypeError; it depends on the order of the conditioning set; it is not transitive."
  },
  {
   "property": "C65",
   "status": "proved",
   "theorems": [
    "Mbtk.BN.cmi_source_exact",
    "Mbtk.BN.cmi_source_zero_iff",
    "Mbtk.BN.cmi_source_argument_order",
    "Mbtk.BN.netCmi_congr"
   ],
   "note": "Proved for calls with X < Y, which is where it is true; finding: with X > Y the probabilities are looked up transposed (cmi_source_argument_order)."
  },
  {
   "property": "C66",
   "status": "proved",
   "theorems": [
    "Mbtk.BN.finalized_graph",
    "Mbtk.BN.d_separation_implies_independence",
    "Mbtk.BN.oracles_agree_on_separation",
    "Mbtk.BN.reported_separation_is_independence",
    "Mbtk.BN.reported_separation_is_independence_shallow",
    "Mbtk.BN.dependence_seen_by_graph",
    "Mbtk.BN.local_markov",
    "Mbtk.BN.blanket_shields",
    "Mbtk.BN.iamb_result_shields",
    "Mbtk.BN.ipcmb_result_shields",
    "Mbtk.BN.graph_oracle_wrong"
   ],
   "note": "Finding (graph_oracle_wrong): for the conditioning sets excluded in C13 the test can answer True for variables that determine each other."
  },
  {
   "property": "C67",
   "status": "proved",
   "theorems": [
    "Mbtk.BN.samples_ok",
    "Mbtk.BN.sample_matrix_rows",
    "Mbtk.BN.samples_distribution",
    "Mbtk.BN.frequencies_converge"
   ],
   "note": "Random numbers are idealised as independent uniform reals; the pseudo random generator and floating point are not modelled."
  },
  {
   "property": "C68",
   "status": "proved",
   "theorems": [
    "Mbtk.BN.sample_matrix_frequencies",
    "Mbtk.BN.sampled_cmi_converges",
    "Mbtk.BN.g_test_finds_dependence",
    "Mbtk.BN.chi2_meets"
   ],
   "note": "Hypotheses on the session: no sample-size criterion, significance below 1, a cdf that tends to 1 (met by the chi-squared cdf, chi2_meets). Type-I errors are not covered: they have positive probability at every sample size."
  },
  {
   "property": "C69",
   "status": "proved",
   "theorems": [
    "Mbtk.MB.discovery_same_with_all_g_tests"
   ],
   "note": "Composes C31/C34 with the algorithms by a simulation: only proper questions are asked. The end() calls (saving) are not modelled."
  },
  {
   "property": "C70",
   "status": "proved",
   "theorems": [
    "Mbtk.BN.discovery_complete_on_large_samples"
   ],
   "note": "Hypotheses: faithfulness, no sufficiency criterion configured, significance below 1, a distribution function that tends to 1 (shown for chi-squared). Says nothing about false positives, which a fixed significance level cannot exclude."
  },
  {
   "property": "C71",
   "status": "proved",
   "theorems": [
    "Mbtk.Exp.dispatch_exact",
    "Mbtk.Exp.locked_experiment_survives",
    "Mbtk.Exp.locked_exds_survives",
    "Mbtk.Exp.looking_changes_no_file",
    "Mbtk.Exp.bad_index_no_effect",
    "Mbtk.Exp.exp_run_success",
    "Mbtk.Exp.run_then_list",
    "Mbtk.Exp.exp_run_refused",
    "Mbtk.Exp.datapoints_list_exact",
    "Mbtk.Exp.parameters_list_exact",
    "Mbtk.Exp.exds_build_success",
    "Mbtk.Exp.exds_built_once",
    "Mbtk.Exp.exds_without_lock_rebuilt",
    "Mbtk.Exp.exds_def_show_exact",
    "Mbtk.Exp.exp_def_show_exact",
    "Mbtk.Exp.delete_after_show",
    "Mbtk.Exp.lock_missing_folder",
    "Mbtk.Exp.build_locked_raises"
   ],
   "note": "Hypothesis: the folders of experiment and dataset do not contain one another. Printed text is a list of structured lines; --key and argparse itself are not modelled."
  },
  {
   "property": "C72",
   "status": "proved",
   "theorems": [
    "Mbtk.Stats.pmf_eq_iff",
    "Mbtk.Stats.pmf_eq_refl",
    "Mbtk.Stats.pmf_eq_symm",
    "Mbtk.Stats.pmf_eq_chain",
    "Mbtk.Stats.pmf_eq_not_transitive",
    "Mbtk.Stats.pmf_eq_ignores_ids",
    "Mbtk.Stats.pmf_eq_false_of_key",
    "Mbtk.Stats.pmf_eq_zero_key",
    "Mbtk.Stats.pmf_eq_after_remove_zeros",
    "Mbtk.Stats.pmf_eq_blind_on_single_tuples",
    "Mbtk.Stats.pmf_eq_of_variables",
    "Mbtk.Stats.pmf_eq_exact_on_small_samples",
    "Mbtk.Stats.pmf_eq_large_samples",
    "Mbtk.Stats.cpmf_eq_iff",
    "Mbtk.Stats.cpmf_eq_refl",
    "Mbtk.Stats.cpmf_eq_symm",
    "Mbtk.Stats.pmf_diff_exact",
    "Mbtk.Stats.pmf_diff_agrees",
    "Mbtk.Stats.pmf_diff_defined",
    "Mbtk.Stats.cpmf_diff_exact"
   ],
   "note": "Probabilities are exact rationals; the tolerance 1e-10 of the code is kept. Findings: not transitive; one-element-tuple keys are compared without their probabilities; samples of more than 10^5 rows each can compare equal with different frequencies."
  },
  {
   "property": "C73",
   "status": "proved",
   "theorems": [
    "Mbtk.Stats.min_instance_count_spec",
    "Mbtk.Stats.min_instance_count_error",
    "Mbtk.Stats.create_instances_list_exact_zeros",
    "Mbtk.Stats.min_instance_count_accurate",
    "Mbtk.Stats.min_instance_count_not_accurate"
   ],
   "note": "round() is modelled as Python's banker's rounding on exact rationals. Finding: without the multiples hypothesis the recommended count omits values."
  },
  {
   "property": "C74",
   "status": "proved",
   "theorems": [
    "Mbtk.Dataset.Synth.exact_dataset_shape",
    "Mbtk.Dataset.Synth.exact_dataset_frequencies",
    "Mbtk.Dataset.Synth.unknown_method",
    "Mbtk.Dataset.Synth.exact_dataset_impossible_sample",
    "Mbtk.Dataset.Synth.exact_instances_rows"
   ],
   "note": "Hypothesis for the frequencies: n times every joint probability is whole (otherwise false: exact_dataset_impossible_sample)."
  },
  {
   "property": "C75",
   "status": "proved",
   "theorems": [
    "Mbtk.BN.exact_data_cmi",
    "Mbtk.BN.exact_data_no_false_dependence",
    "Mbtk.BN.g_test_decides_on_exact_data",
    "Mbtk.BN.discovery_exact_on_exact_data",
    "Mbtk.BN.whole_counts_exist",
    "Mbtk.BN.chi2_zero"
   ],
   "note": "Hypotheses: whole counts; for the decisions no sufficiency criterion, significance below 1, distribution function tends to 1 and is below the significance at 0 (both shown for chi-squared)."
  },
  {
   "property": "C76",
   "status": "proved",
   "theorems": [
    "Mbtk.DsepSummary.summary_ok_iff",
    "Mbtk.DsepSummary.summary_exact",
    "Mbtk.DsepSummary.distance_zero_iff_perfect",
    "Mbtk.DsepSummary.summary_ranges",
    "Mbtk.DsepSummary.condset_average_overestimates",
    "Mbtk.DsepSummary.condset_average_extremes",
    "Mbtk.DsepSummary.summary_errors"
   ],
   "note": "Numbers exact (reals); the rendering of the histogram and the per-target entries are not modelled."
  },
  {
   "property": "C77",
   "status": "proved",
   "theorems": [
    "Mbtk.DsepSetup.setup_ok_iff",
    "Mbtk.DsepSetup.one_run_per_variable",
    "Mbtk.DsepSetup.runs_kept_apart",
    "Mbtk.DsepSetup.reference_is_network_run",
    "Mbtk.DsepSetup.datasets_kept_apart",
    "Mbtk.DsepSetup.format_never_checked"
   ],
   "note": "int(float()) and the reading of the network are parameters; a sample count is a single path component (float() accepts no slash)."
  },
  {
   "property": "C78",
   "status": "proved",
   "theorems": [
    "Mbtk.ClassifierRun.evaluation_exact",
    "Mbtk.ClassifierRun.only_blanket_matters",
    "Mbtk.ClassifierRun.blanket_order_irrelevant",
    "Mbtk.ClassifierRun.counts_are_test_samples",
    "Mbtk.ClassifierRun.run_exact",
    "Mbtk.ClassifierRun.empty_blanket_raises",
    "Mbtk.ClassifierRun.no_training_data",
    "Mbtk.ClassifierRun.datapoint_parameters",
    "Mbtk.ClassifierRun.test_data_leaks"
   ],
   "note": "Algorithm and classifier are arbitrary functions; times and the text of a data point are not modelled."
  },
  {
   "property": "C79",
   "status": "proved",
   "theorems": [
    "Mbtk.RunLogs.writer_writes_everywhere",
    "Mbtk.RunLogs.writer_close",
    "Mbtk.RunLogs.console_and_logs_exact",
    "Mbtk.RunLogs.redirected_console_closed"
   ],
   "note": "Buffers are not modelled; the constructor of a run and the saving of a data point do not raise here (see C57 for those)."
  },
  {
   "property": "C80",
   "status": "proved",
   "theorems": [
    "Mbtk.Fp.float_pmf",
    "Mbtk.Fp.float_instances_exact",
    "Mbtk.Fp.float_pmf_eq",
    "Mbtk.Fp.float_min_instance_count",
    "Mbtk.Fp.instances_near_counts"
   ],
   "note": "Rounding to nearest, half to even, with subnormals; overflow cannot occur for these numbers."
  },
  {
   "property": "C81",
   "status": "proved",
   "theorems": [
    "Mbtk.Fp.float_sample_iff",
    "Mbtk.Fp.float_sample_distribution",
    "Mbtk.Fp.float_sample_ok",
    "Mbtk.Fp.draws_near",
    "Mbtk.Fp.draws_none",
    "Mbtk.Fp.draws_zero",
    "Mbtk.Fp.sampleRoll_agrees",
    "Mbtk.Fp.float_sample_can_fail",
    "Mbtk.Fp.exShort_fails",
    "Mbtk.Fp.float_sample_impossible"
   ],
   "note": "Two findings: a row summing to one whose float cumulative sums stay below the largest random number raises a TypeError; a first value of probability zero can be drawn."
  },
  {
   "property": "C82",
   "status": "proved",
   "theorems": [
    "Mbtk.Fp.float_joint_pmf",
    "Mbtk.Fp.float_exact_instances",
    "Mbtk.Fp.float_instances_length",
    "Mbtk.Fp.float_exact_rows_any",
    "Mbtk.Fp.float_exact_data_cmi",
    "Mbtk.Fp.exTenths_pmf"
   ],
   "note": "CMI there is computed with exact logarithms."
  },
  {
   "property": "C83",
   "status": "proved",
   "theorems": [
    "Mbtk.Fp.float_unoptimized_session",
    "Mbtk.Fp.float_unoptimized_answers",
    "Mbtk.Fp.gError_small",
    "Mbtk.Fp.independent_clear",
    "Mbtk.Fp.gValue_error",
    "Mbtk.Fp.roundedLog_accurate",
    "Mbtk.Fp.coin_answers"
   ],
   "note": "math.log is a parameter assumed accurate (the correctly rounded logarithm meets the assumption); chi2.cdf is an arbitrary function of the logged statistic."
  },
  {
   "property": "C84",
   "status": "proved",
   "theorems": [
    "Mbtk.Fp.float_adtree_session",
    "Mbtk.Fp.float_adtree_answers",
    "Mbtk.Fp.adTables_sim",
    "Mbtk.Fp.adPmf_sim"
   ],
   "note": "math.log is a parameter assumed accurate, chi2.cdf an arbitrary function."
  },
  {
   "property": "C85",
   "status": "proved",
   "theorems": [
    "Mbtk.Fp.float_dcmi_session",
    "Mbtk.Fp.float_dcmi_answers",
    "Mbtk.Fp.float_entropy_table",
    "Mbtk.Fp.float_entropy_reload",
    "Mbtk.Fp.float_tests_agree",
    "Mbtk.Fp.dcError_small",
    "Mbtk.Fp.leftSum_accurate",
    "Mbtk.Fp.entropyF_data"
   ],
   "note": "math.log and sum are parameters assumed accurate (the correctly rounded logarithm and left-to-right addition are proved to meet the assumptions), chi2.cdf an arbitrary function."
  },
  {
   "property": "C86",
   "status": "proved",
   "theorems": [
    "Mbtk.Struct.CTree.sum_correct",
    "Mbtk.Struct.CTree.subtract_correct",
    "Mbtk.Struct.CTree.sum_in_place_correct",
    "Mbtk.Struct.CTree.subtract_in_place_correct",
    "Mbtk.Struct.CTree.in_place_agrees",
    "Mbtk.Struct.CTree.sum_subtract",
    "Mbtk.Struct.CTree.sum_subtract_in_place",
    "Mbtk.Struct.CTree.subtract_self_in_place",
    "Mbtk.Struct.CTree.result_independent",
    "Mbtk.Struct.CTree.in_place_refines_value",
    "Mbtk.Struct.CTree.too_deep",
    "Mbtk.Struct.CTree.depth_mismatch",
    "Mbtk.Struct.CTree.sum_shares_subtrees",
    "Mbtk.Struct.CTree.sum_drops_paths"
   ],
   "note": "Trees of equal depth; the in-place theorems need a first operand without shared objects and operands that are the same object or disjoint, the second operand may share objects."
  },
  {
   "property": "C87",
   "status": "proved",
   "theorems": [
    "Mbtk.Fp.float_discovery_ends",
    "Mbtk.Fp.float_discovery_exact",
    "Mbtk.Fp.float_discovery_same",
    "Mbtk.Fp.cmiComputeF_near"
   ],
   "note": "The logarithm is assumed accurate to one unit in the last place and the sum of dcMI as in C85; conditioning sets are passed in the order in which the model lists them (the code passes sets; the statistic of C83-C85 is bounded for every order)."
  },
  {
   "property": "C88",
   "status": "proved",
   "theorems": [
    "Mbtk.DcmiSetup.runs_created",
    "Mbtk.DcmiSetup.run_ids_distinct",
    "Mbtk.DcmiSetup.files_kept_apart",
    "Mbtk.DcmiSetup.tree_shared_iff",
    "Mbtk.DcmiSetup.caches_shared_iff",
    "Mbtk.DcmiSetup.arguments_ok_iff",
    "Mbtk.DcmiSetup.file_names",
    "Mbtk.DcmiSetup.sample_count_exact",
    "Mbtk.DcmiSetup.threshold_exact",
    "Mbtk.DcmiSetup.tag_selects",
    "Mbtk.DcmiSetup.preload_correct",
    "Mbtk.DcmiSetup.runs_need_built_trees"
   ],
   "note": "The number of variables of the network is given; matrices and classes are represented by names; a preloaded tree is represented by its identity."
  },
  {
   "property": "C89",
   "status": "proved",
   "theorems": [
    "Mbtk.DcmiSummary.dcmi_summary_exact",
    "Mbtk.DcmiSummary.analysis_files_apart",
    "Mbtk.DcmiSummary.summary_other_tree_tag",
    "Mbtk.DcmiSummary.one_missing_file",
    "Mbtk.DcmiSummary.summaries_through_history",
    "Mbtk.DcmiSummary.summary_never_updated",
    "Mbtk.DcmiSummary.shown_tags",
    "Mbtk.DcmiSummary.stale_summary",
    "Mbtk.DcmiSummary.plot_exact",
    "Mbtk.DcmiSummary.legend_right_iff",
    "Mbtk.DcmiSummary.wrong_legend",
    "Mbtk.DcmiSummary.median_spec"
   ],
   "note": "Durations are exact reals; sizes of objects are given with the files; the layout of the text and the drawing itself are not modelled; the plotting library is assumed to raise ValueError for lists of different length and to assign the legend to lines in order."
  },
  {
   "property": "C90",
   "status": "proved",
   "theorems": [
    "Mbtk.Exp.Parallel.parallel_datapoint_complete",
    "Mbtk.Exp.Parallel.parallel_as_alone",
    "Mbtk.Exp.Parallel.parallel_own_datapoint",
    "Mbtk.Exp.Parallel.parallel_foreign_datapoint",
    "Mbtk.Exp.Parallel.parallel_lock_stays",
    "Mbtk.Exp.Parallel.parallel_locked",
    "Mbtk.Exp.Parallel.parallel_stable",
    "Mbtk.Exp.Parallel.locked_while_incomplete",
    "Mbtk.Exp.Parallel.locked_incomplete_after_crash",
    "Mbtk.Exp.Parallel.zeros_after_crash",
    "Mbtk.Exp.Parallel.mixture_of_results"
   ],
   "note": "POSIX files: opening truncates, each process writes at its own position, gaps are zeros; making a folder with its parents is one step; the deletion or unlocking of the experiment meanwhile is not modelled; a process that raises is one whose steps end early."
  },
  {
   "property": "C91",
   "status": "proved",
   "theorems": [
    "Mbtk.BN.Caches.caches_transparent",
    "Mbtk.BN.Caches.finalized_caches_transparent",
    "Mbtk.BN.Caches.tables_are_edited",
    "Mbtk.BN.Caches.joint_never_changes",
    "Mbtk.BN.Caches.entry_never_changes",
    "Mbtk.BN.Caches.partial_never_changes",
    "Mbtk.BN.Caches.new_tuple_is_current",
    "Mbtk.BN.Caches.first_joint_is_current",
    "Mbtk.BN.Caches.samples_ignore_edits",
    "Mbtk.BN.Caches.Example.old_joint_new_partial",
    "Mbtk.BN.Caches.Example.old_partial",
    "Mbtk.BN.Caches.Example.partial_query_changes_samples",
    "Mbtk.BN.Caches.Example.entry_read_before_edit",
    "Mbtk.BN.Caches.Example.relabel_is_remembered"
   ],
   "note": "Of the edits the replacement (or addition) of a row is modelled; if making a subnetwork raises, no cumulative sums are changed in the model; exact arithmetic."
  },
  {
   "property": "C92",
   "status": "proved",
   "theorems": [
    "Mbtk.BN.frequency_deviation",
    "Mbtk.BN.cmi_deviation",
    "Mbtk.BN.discovery_sample_bound",
    "Mbtk.BN.discovery_probably_complete",
    "Mbtk.BN.weakest_dependence",
    "Mbtk.BN.bound_le",
    "Mbtk.BN.dof_le_combinations",
    "Mbtk.BN.blocks_indep"
   ],
   "note": "Sampling and measures in exact arithmetic; the random numbers of `random.random()` are an ideal source. Probabilities are outer measures of the sets of bad streams."
  },
  {
   "property": "C93",
   "status": "proved",
   "theorems": [
    "Mbtk.MB.iamb_number_of_tests",
    "Mbtk.MB.iamb_number_of_heuristics",
    "Mbtk.MB.recognizePC_number_of_tests",
    "Mbtk.MB.recognizePC_no_test_twice",
    "Mbtk.MB.recognizePC_number_of_tests_sparse",
    "Mbtk.MB.ipcmb_number_of_tests_sparse",
    "Mbtk.MB.ipcmb_number_of_tests",
    "Mbtk.MB.iamb_tests_if_all_dependent",
    "Mbtk.MB.recognizePC_tests_if_all_dependent",
    "Mbtk.MB.ipcmb_tests_if_all_dependent",
    "Mbtk.MB.ipcmb_tests_dseparation",
    "Mbtk.MB.iamb_can_repeat_a_test",
    "Mbtk.MB.ipcmb_repeats_tests_swapped"
   ],
   "note": "Counts the tests of runs that end without exception; duplicate-free set of variables containing the target."
  },
  {
   "property": "C94",
   "status": "proved",
   "theorems": [
    "Mbtk.Exp.Restructure.restructure_loses_nothing",
    "Mbtk.Exp.Restructure.restructure_keeps_every_file",
    "Mbtk.Exp.Restructure.restructure_result",
    "Mbtk.Exp.Restructure.restructure_succeeds",
    "Mbtk.Exp.Restructure.restructure_after_crashes",
    "Mbtk.Exp.Restructure.restructure_can_be_resumed",
    "Mbtk.Exp.Restructure.restructure_idempotent",
    "Mbtk.Exp.Restructure.restructure_keeps_locks",
    "Mbtk.Exp.Restructure.restructured_results_found",
    "Mbtk.Exp.Restructure.plots_not_moved",
    "Mbtk.Exp.Restructure.restructure_aborts_on_occupied",
    "Mbtk.Exp.Restructure.restructure_blank_name"
   ],
   "note": "rename and mkdir as on POSIX, one file system, no symbolic links; no folder named with the bare prefix (`restructure_blank_name` shows what happens otherwise)."
  },
  {
   "property": "C95",
   "status": "proved",
   "theorems": [
    "Mbtk.Server.server_answers_right",
    "Mbtk.Server.server_calls_in_order",
    "Mbtk.Server.server_answers_everybody",
    "Mbtk.Server.server_can_finish",
    "Mbtk.Server.unknown_request_ends_server",
    "Mbtk.Server.failing_request_ends_server",
    "Mbtk.Server.ended_server_never_answers"
   ],
   "note": "REQ/REP sockets with their alternation rules; arguments of the right type; pickling of messages is the identity."
  },
  {
   "property": "C96",
   "status": "proved",
   "theorems": [
    "Mbtk.Fp.float_mutual_information",
    "Mbtk.Fp.float_mi_binary",
    "Mbtk.Fp.float_igt_selects",
    "Mbtk.Fp.float_igt_variants_agree",
    "Mbtk.Fp.igt_errors_small"
   ],
   "note": "math.log2 is assumed accurate to a relative error of 2^-52 and is otherwise arbitrary; a correctly rounded logarithm is shown to meet this."
  },
  {
   "property": "C97",
   "status": "proved",
   "theorems": [
    "Mbtk.Fp.float_matrix_distribution",
    "Mbtk.Fp.float_frequency_deviation",
    "Mbtk.Fp.float_discovery_sample_bound"
   ],
   "note": "`random.random()` is modelled as a source of independent numbers, each of the 2^53 multiples of 2^-53 equally likely (the Mersenne Twister is not modelled); such sources are shown to exist. `math.log` and `sum` as in C87."
  },
  {
   "property": "C98",
   "status": "proved",
   "theorems": [
    "Mbtk.ADTree.adtree_size",
    "Mbtk.ADTree.adtree_size_log",
    "Mbtk.ADTree.adtree_size_leaf_lists",
    "Mbtk.ADTree.adtree_depth",
    "Mbtk.ADTree.dynamic_never_larger",
    "Mbtk.ADTree.adtree_size_attained"
   ],
   "note": ""
  },
  {
   "property": "C99",
   "status": "proved",
   "theorems": [
    "Mbtk.ADTree.Debug.debug_tree_transparent",
    "Mbtk.ADTree.Debug.debug_tree_right",
    "Mbtk.ADTree.Debug.debug_tree_counters",
    "Mbtk.ADTree.Debug.debug_tree_reports_no_queries"
   ],
   "note": ""
  },
  {
   "property": "C100",
   "status": "proved",
   "theorems": [
    "Mbtk.Stats.DebugTest.ad_debug_test_transparent",
    "Mbtk.Stats.DebugTest.ad_debug_constructor",
    "Mbtk.Stats.DebugTest.ad_debug_poisoned_tree",
    "Mbtk.Stats.DebugTest.ad_debug_test_right",
    "Mbtk.Stats.DebugTest.unopt_debug_test",
    "Mbtk.Stats.DebugTest.dc_debug_test_unusable"
   ],
   "note": ""
  },
  {
   "property": "C101",
   "status": "proved",
   "theorems": [
    "Mbtk.Exp.GtestEnum.enum_tests_exact",
    "Mbtk.Exp.GtestEnum.enum_tests_count",
    "Mbtk.Exp.GtestEnum.enum_entropy_use",
    "Mbtk.Exp.GtestEnum.enum_no_tests",
    "Mbtk.Exp.GtestEnum.enum_flat_report",
    "Mbtk.Exp.GtestEnum.all_tests_dcmi_cost"
   ],
   "note": ""
  },
  {
   "property": "C102",
   "status": "proved",
   "theorems": [
    "Mbtk.MB.Shared.shared_series_same",
    "Mbtk.MB.Shared.shared_series_cost",
    "Mbtk.MB.Shared.shared_jht_needs_save_path"
   ],
   "note": ""
  },
  {
   "property": "C103",
   "status": "proved",
   "theorems": [
    "Mbtk.Struct.duplicate_same",
    "Mbtk.Struct.duplicate_inPlace_iff",
    "Mbtk.Struct.position_counts_smaller",
    "Mbtk.Struct.finalized_prepend",
    "Mbtk.Struct.append_exact",
    "Mbtk.Struct.append_inPlace",
    "Mbtk.Struct.append_all_exact",
    "Mbtk.Struct.remove_leftmost_exact",
    "Mbtk.Struct.finalized_single_column",
    "Mbtk.Struct.group_keys_exact",
    "Mbtk.Struct.group_keys_unknown"
   ],
   "note": ""
  },
  {
   "property": "C104",
   "status": "proved",
   "theorems": [
    "Mbtk.BN.lookups_exact",
    "Mbtk.BN.nodes_by_name_unknown",
    "Mbtk.BN.nodes_by_name_unfinalized",
    "Mbtk.BN.sizes_exact",
    "Mbtk.BN.distribution_eq_exact",
    "Mbtk.BN.distribution_eq_copy",
    "Mbtk.BN.copy_samples_same",
    "Mbtk.BN.copy_loses"
   ],
   "note": ""
  },
  {
   "property": "C105",
   "status": "proved",
   "theorems": [
    "Mbtk.CiResult.str_ok_iff",
    "Mbtk.CiResult.complete_result_prints",
    "Mbtk.CiResult.printed_marks",
    "Mbtk.CiResult.dsep_answers",
    "Mbtk.CiResult.dsep_log",
    "Mbtk.CiResult.dsep_prints",
    "Mbtk.CiResult.dsep_logged_unprintable",
    "Mbtk.CiResult.dsep_end",
    "Mbtk.CiResult.printed_identifies",
    "Mbtk.CiResult.pyFormat_sane",
    "Mbtk.CiResult.exRight_line",
    "Mbtk.CiResult.exShort_line"
   ],
   "note": "How numbers are written is a parameter; the formats of Python are an instance (pyFormat) that meets the hypotheses."
  },
  {
   "property": "C106",
   "status": "proved",
   "theorems": [
    "Mbtk.ADTree.Latex.to_latex_exact",
    "Mbtk.ADTree.Latex.to_latex_line_count",
    "Mbtk.ADTree.Latex.to_latex_loaded"
   ],
   "note": ""
  },
  {
   "property": "C107",
   "status": "proved",
   "theorems": [
    "Mbtk.Stats.VarObjects.lazy_loading",
    "Mbtk.Stats.VarObjects.read_exact",
    "Mbtk.Stats.VarObjects.readers_agree",
    "Mbtk.Stats.VarObjects.update_values_exact",
    "Mbtk.Stats.VarObjects.joint_members",
    "Mbtk.Stats.VarObjects.joint_construction",
    "Mbtk.Stats.VarObjects.joint_rows",
    "Mbtk.Stats.VarObjects.joint_degenerate",
    "Mbtk.Stats.VarObjects.sorted_joint_never",
    "Mbtk.Stats.VarObjects.index_variable"
   ],
   "note": "Loaders that raise are not modelled; joint_rows is about members that are different variables."
  },
  {
   "property": "C108",
   "status": "proved",
   "theorems": [
    "Mbtk.Dataset.Compare.diff_exact",
    "Mbtk.Dataset.Compare.diff_empty_iff_eq",
    "Mbtk.Dataset.Compare.eq_equivalence",
    "Mbtk.Dataset.Compare.get_matrix_exact"
   ],
   "note": ""
  },
  {
   "property": "C109",
   "status": "proved",
   "theorems": [
    "Mbtk.MB.Estimator.estimator_call",
    "Mbtk.MB.Estimator.estimator_range",
    "Mbtk.MB.Estimator.log_exact",
    "Mbtk.MB.Estimator.history_irrelevant",
    "Mbtk.MB.Estimator.end_saves"
   ],
   "note": "d-separation is the shipped one (C06)."
  },
  {
   "property": "C110",
   "status": "proved",
   "theorems": [
    "Mbtk.Bif.Text.bif_parser_exact",
    "Mbtk.Bif.Text.bif_grammar_unambiguous",
    "Mbtk.Bif.Text.bif_texts_join",
    "Mbtk.Bif.Text.bif_truncated_is_prefix",
    "Mbtk.Bif.Text.bif_every_prefix_is_a_truncation",
    "Mbtk.Bif.Text.bif_text_exists",
    "Mbtk.Bif.Text.larkOf_correct",
    "Mbtk.Bif.Text.bif_text_read",
    "Mbtk.Bif.Text.bif_layout_irrelevant",
    "Mbtk.Bif.Text.bif_names",
    "Mbtk.Bif.Text.bif_truncated_read",
    "Mbtk.Bif.Text.bif_cut_before_tables",
    "Mbtk.Bif.Text.survey_derives",
    "Mbtk.Bif.Text.bif_no_space_needed",
    "Mbtk.Bif.Text.bif_refuses_decimal_values",
    "Mbtk.Bif.Text.bif_refuses_comments",
    "Mbtk.Bif.Text.bif_refuses_words",
    "Mbtk.Bif.Text.bif_refuses_negative",
    "Mbtk.Bif.Text.number_terminal"
   ],
   "note": "lark is trusted to return the tree of a derivation and to raise if there is none; the terminals of lark's common.lark are transcribed."
  },
  {
   "property": "C111",
   "status": "proved",
   "theorems": [
    "Mbtk.Bif.Text.bif_text_to_blanket_iamb",
    "Mbtk.Bif.Text.bif_text_to_blanket_ipcmb",
    "Mbtk.Bif.Text.bif_text_to_blanket_gtest",
    "Mbtk.Bif.Text.survey_text_to_blanket",
    "Mbtk.Bif.Text.survey_blanket"
   ],
   "note": "Composition of C110, C62, C66, C19, C20 (its proved part), C75; survey.bif from its text to the blanket of EDU as example."
  },
  {
   "property": "C112",
   "status": "proved",
   "theorems": [
    "Mbtk.DsepSummary.percent_close",
    "Mbtk.DsepSummary.percent_monotone",
    "Mbtk.DsepSummary.hundred_percent_iff",
    "Mbtk.DsepSummary.hundred_percent_small",
    "Mbtk.DsepSummary.hundred_percent_with_errors",
    "Mbtk.DsepSummary.zero_percent_iff",
    "Mbtk.DsepSummary.tabular_row_reads",
    "Mbtk.DsepSummary.histogram_reads",
    "Mbtk.DsepSummary.good_log2_exists"
   ],
   "note": "Python's float formats are modelled digit by digit (NumberText); the float of the average distance is a parameter near the exact value."
  },
  {
   "property": "C113",
   "status": "proved",
   "theorems": [
    "Mbtk.Exp.GtestEnum.bits_denote_set",
    "Mbtk.Exp.GtestEnum.bits_line",
    "Mbtk.Exp.GtestEnum.line_reads_back",
    "Mbtk.Exp.GtestEnum.line_terms",
    "Mbtk.Exp.GtestEnum.listing_distinct",
    "Mbtk.Exp.GtestEnum.makeFeatures_features"
   ],
   "note": ""
  },
  {
   "property": "C114",
   "status": "proved",
   "theorems": [
    "Mbtk.Dataset.counts_match_labels",
    "Mbtk.Dataset.label_position",
    "Mbtk.Dataset.counts_errors",
    "Mbtk.Dataset.info_determines"
   ],
   "note": "The repr of labels is modelled for printable characters and the escapes of backslash, quotes, newline, carriage return and tab."
  },
  {
   "property": "C115",
   "status": "proved",
   "theorems": [
    "Mbtk.Mpprint.whole_texts",
    "Mbtk.Mpprint.lines_read_back",
    "Mbtk.Mpprint.everything_printed",
    "Mbtk.Mpprint.lock_lost"
   ],
   "note": "Finding: mpprint releases its lock only if nothing is raised. Processes are assumed to write to the common output only with mpprint."
  },
  {
   "property": "C116",
   "status": "proved",
   "theorems": [
    "Mbtk.PathSet.shorten_exact",
    "Mbtk.PathSet.shorten_ambiguous",
    "Mbtk.PathSet.str_injective",
    "Mbtk.PathSet.text_read_back"
   ],
   "note": "Finding: Root/x and Root.parent/x print the same. POSIX paths as pathlib normalizes them; names of folders without line breaks."
  }
 ]
}
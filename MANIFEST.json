{
 "claims": [
  {
   "property": "C01",
   "status": "proved",
   "theorems": [
    "Verif.StateTracking.C01_step_executes_iff_ready",
    "Verif.StateTracking.C01_refused_changes_nothing",
    "Verif.StateTracking.C01_warning_names_missing",
    "Verif.StateTracking.C01_history_entered_ready"
   ],
   "note": "Any class description, setter code, step body and history."
  },
  {
   "property": "C02",
   "status": "proved",
   "theorems": [
    "Verif.StateTracking.C02_returned",
    "Verif.StateTracking.C02_raised"
   ],
   "note": ""
  },
  {
   "property": "C03",
   "status": "proved",
   "theorems": [
    "Verif.StateTracking.C03_assign_lowers",
    "Verif.StateTracking.C03_rejected_changes_nothing",
    "Verif.StateTracking.C03_assignments_never_advance",
    "Verif.StateTracking.C03_assignment_invalidates"
   ],
   "note": ""
  },
  {
   "property": "C04",
   "status": "proved",
   "theorems": [
    "Verif.StateTracking.C04_flags_mirror_history"
   ],
   "note": ""
  },
  {
   "property": "C05",
   "status": "proved",
   "theorems": [
    "Verif.StateTracking.C05_next_lists_missing",
    "Verif.StateTracking.C05_suggested_step_runs"
   ],
   "note": ""
  },
  {
   "property": "C06",
   "status": "proved",
   "theorems": [
    "Verif.FlowStability.C06_stage_iff_pipeline",
    "Verif.FlowStability.C06_stage_range"
   ],
   "note": "Both directions: stage reached iff the events show the pipeline in order."
  },
  {
   "property": "C07",
   "status": "partial",
   "theorems": [
    "Verif.FlowStability.C07_single_direction_refused",
    "Verif.FlowStability.C07_both_directions_partial"
   ],
   "note": "The code violates the property for time_direction 1 and -1: C07_single_direction_refused proves the refusal for every history. What holds (direction 0) is C07_both_directions_partial."
  },
  {
   "property": "C08",
   "status": "partial",
   "theorems": [
    "Verif.FlowStability.C08_assigned_network_refused",
    "Verif.FlowStability.C08_set_temporal_network_partial"
   ],
   "note": "The code violates the property: C08_assigned_network_refused. What holds is C08_set_temporal_network_partial."
  },
  {
   "property": "C09",
   "status": "partial",
   "theorems": [
    "Verif.FlowStability.C09_rejected_value_counts_as_set",
    "Verif.FlowStability.C09_flag_matches_network_partial"
   ],
   "note": "The code violates the property for values of other types: C09_rejected_value_counts_as_set."
  },
  {
   "property": "C10",
   "status": "partial",
   "theorems": [
    "Verif.FlowStability.C10_accepted_iff_positive",
    "Verif.FlowStability.C10_rejected_keeps_everything",
    "Verif.FlowStability.C10_iterator_reads_empty",
    "Verif.FlowStability.C10_read_back_partial"
   ],
   "note": "Validation and rejection are proved in full; read-back is violated for one-shot iterators (C10_iterator_reads_empty) and proved for everything else (C10_read_back_partial)."
  },
  {
   "property": "C23",
   "status": "proved",
   "theorems": [
    "Verif.Partition.C23_partition_consistent",
    "Verif.Partition.C23_move_effect",
    "Verif.Partition.C23_removeEmpty_effect"
   ],
   "note": ""
  },
  {
   "property": "C24",
   "status": "partial",
   "theorems": [
    "Verif.Partition.C24_out_of_range_accepted",
    "Verif.Partition.C24_integrity_exact_partial",
    "Verif.Partition.C24_integrity_decides_counts"
   ],
   "note": "Violated for nodes outside 0..N-1 (C24_out_of_range_accepted); exact for nodes in range."
  },
  {
   "property": "C25",
   "status": "partial",
   "theorems": [
    "Verif.Partition.C25_failed_move_loses_node",
    "Verif.Partition.C25_unknown_node_atomic_partial",
    "Verif.Partition.C25_negative_index_breaks"
   ],
   "note": "Violated for every consistent partition and every index past the end; atomic only for unknown nodes."
  },
  {
   "property": "C52",
   "status": "proved",
   "theorems": [
    "Verif.Partition.C52_indicator",
    "Verif.Partition.C52_indicator_rows"
   ],
   "note": ""
  },
  {
   "property": "C26",
   "status": "proved",
   "theorems": [
    "Verif.Louvain.C26_stability_is_pair_sum",
    "Verif.Louvain.C26_gain_exact",
    "Verif.Louvain.C26_compiled_sums",
    "Verif.Louvain.C26_gain_refused"
   ],
   "note": ""
  },
  {
   "property": "C27",
   "status": "proved",
   "theorems": [
    "Verif.Louvain.C27_phase_exact"
   ],
   "note": ""
  },
  {
   "property": "C28",
   "status": "proved",
   "theorems": [
    "Verif.Louvain.C28_aggregation_preserves_stability",
    "Verif.Louvain.C28_aggregated_matrix"
   ],
   "note": ""
  },
  {
   "property": "C29",
   "status": "partial",
   "theorems": [
    "Verif.Louvain.C29_no_worse_from_default_partial",
    "Verif.Louvain.C29_first_gain_kept_partial",
    "Verif.Louvain.C29_returns_partial",
    "Verif.Louvain.C29_negligible_covariance_partial",
    "Verif.Louvain.C29_supplied_partition_worse",
    "Verif.Louvain.C29_second_call_worse",
    "Verif.Louvain.C29_negligible_covariance_worse"
   ],
   "note": "Proved from the default partition; violated for a supplied partition, a second call and negligible covariances (three witnesses)."
  },
  {
   "property": "C30",
   "status": "proved",
   "theorems": [
    "Verif.Louvain.C30_sweeps_bounded",
    "Verif.Louvain.C30_meta_loops_bounded"
   ],
   "note": ""
  },
  {
   "property": "C53",
   "status": "proved",
   "theorems": [
    "Verif.Louvain.C53_greedy_choice"
   ],
   "note": ""
  },
  {
   "property": "C54",
   "status": "partial",
   "theorems": [
    "Verif.Louvain.C54_zero_row_fails",
    "Verif.Louvain.C29_returns_partial"
   ],
   "note": "Violated for zero rows (C54_zero_row_fails); returns when every row sum is positive (C29_returns_partial)."
  },
  {
   "property": "C11",
   "status": "partial",
   "theorems": [
    "Verif.SparseStoch.C11_expansion",
    "Verif.SparseStoch.C11_round_trip_partial",
    "Verif.SparseStoch.C11_detected_indices",
    "Verif.SparseStoch.C11_zero_diag_fails",
    "Verif.SparseStoch.C11_stored_zero_fails",
    "Verif.SparseStoch.C11_create_diag"
   ],
   "note": "The meaning of expansion is proved in full. The round trip holds for every nonzero diag_val and every matrix without stored zeros or repeats (C11_round_trip_partial); it is violated for diag_val = 0 with a zero row and column (C11_zero_diag_fails) and for stored zeros (C11_stored_zero_fails)."
  },
  {
   "property": "C12",
   "status": "proved",
   "theorems": [
    "Verif.SparseStoch.C12_add_exact",
    "Verif.SparseStoch.C12_sub_exact",
    "Verif.SparseStoch.C12_kept_indices"
   ],
   "note": ""
  },
  {
   "property": "C13",
   "status": "proved",
   "theorems": [
    "Verif.SparseStoch.C13_matmul_exact"
   ],
   "note": ""
  },
  {
   "property": "C14",
   "status": "proved",
   "theorems": [
    "Verif.SparseStoch.C14_transpose_exact",
    "Verif.SparseStoch.C14_scalar_exact",
    "Verif.SparseStoch.C14_diag_shift_exact"
   ],
   "note": ""
  },
  {
   "property": "C15",
   "status": "proved",
   "theorems": [
    "Verif.SparseStoch.C15_rows_sum_to_target",
    "Verif.SparseStoch.C15_rows_sum_to_targets",
    "Verif.SparseStoch.C15_idempotent",
    "Verif.SparseStoch.C15_compressed_rows"
   ],
   "note": "Proportionality is for nonzero targets; with target 0 the compiled routine subtracts the mean."
  },
  {
   "property": "C16",
   "status": "partial",
   "theorems": [
    "Verif.SparseStoch.C16_trim_exact",
    "Verif.SparseStoch.C16_negatives_deleted",
    "Verif.SparseStoch.C16_compressed_trim",
    "Verif.SparseStoch.C16_absolute_option_ignored",
    "Verif.SparseStoch.C16_absolute_option_violated"
   ],
   "note": "Proved for CSR matrices and for the method of the class; violated by temporal_network.set_to_zeroes on a compressed matrix, which ignores use_absolute_value."
  },
  {
   "property": "C17",
   "status": "partial",
   "theorems": [
    "Verif.SparseStoch.C17_effect",
    "Verif.SparseStoch.C17_increasing_list_partial",
    "Verif.SparseStoch.C17_order_matters",
    "Verif.SparseStoch.C17_right_iff",
    "Verif.SparseStoch.C17_index_outside"
   ],
   "note": "Violated for lists that are not increasing (C17_order_matters); C17_effect says exactly what is represented for every order."
  },
  {
   "property": "C18",
   "status": "partial",
   "theorems": [
    "Verif.Autocov.C18_constructor",
    "Verif.Autocov.C18_element",
    "Verif.Autocov.C18_sums_partial",
    "Verif.Autocov.C18_repeated_columns"
   ],
   "note": "Exact for index lists without repetition; violated when a column index is repeated (C18_repeated_columns)."
  },
  {
   "property": "C19",
   "status": "partial",
   "theorems": [
    "Verif.Autocov.C19_join_exact_partial",
    "Verif.Autocov.C19_leave_exact_partial",
    "Verif.Autocov.C19_guard_of_stochastic",
    "Verif.Autocov.C19_empty_row_violated",
    "Verif.Autocov.C19_trailing_empty_rows_fail"
   ],
   "note": "Exact whenever the row of the node stores an entry, as it does for every stochastic matrix; violated for empty rows (C19_empty_row_violated, C19_trailing_empty_rows_fail)."
  },
  {
   "property": "C20",
   "status": "partial",
   "theorems": [
    "Verif.Autocov.C20_versions_agree_partial",
    "Verif.Autocov.C20_block_sums_partial",
    "Verif.Autocov.C20_negative_block_dropped",
    "Verif.Autocov.C20_weights_renormalised"
   ],
   "note": "Exact for nonnegative PT and normalised weights; violated for a negative block sum and for weights that do not sum to one."
  },
  {
   "property": "C21",
   "status": "proved",
   "theorems": [
    "Verif.Autocov.C21_sums_vanish",
    "Verif.Autocov.C21_sums_vanish_default",
    "Verif.Autocov.C21_dense_sums_vanish",
    "Verif.Autocov.C21_threshold"
   ],
   "note": ""
  },
  {
   "property": "C22",
   "status": "partial",
   "theorems": [
    "Verif.Autocov.C22_forward",
    "Verif.Autocov.C22_forward_default",
    "Verif.Autocov.C22_forward_good",
    "Verif.Flow.C22_integral",
    "Verif.Flow.C22_trimming_violated"
   ],
   "note": "One transition and the integral over time, in exact arithmetic; violated when small values of sparse matrices are dropped."
  },
  {
   "property": "C55",
   "status": "partial",
   "theorems": [
    "Verif.Autocov.C55_zero_detected",
    "Verif.Autocov.C55_reported_zero_is_small_partial",
    "Verif.Autocov.C55_unstored_entries_ignored"
   ],
   "note": "Zero matrices are always recognised. The converse holds up to the accumulated tolerance for covariances of stochastic matrices; violated for matrices with unstored entries."
  },
  {
   "property": "C31",
   "status": "proved",
   "theorems": [
    "Verif.TempNet.C31_relabelling",
    "Verif.TempNet.C31_order_preserved",
    "Verif.TempNet.C31_columns"
   ],
   "note": ""
  },
  {
   "property": "C32",
   "status": "proved",
   "theorems": [
    "Verif.TempNet.C32_time_grid",
    "Verif.TempNet.C32_closest_time"
   ],
   "note": ""
  },
  {
   "property": "C33",
   "status": "partial",
   "theorems": [
    "Verif.TempNet.C33_active_contacts_partial",
    "Verif.TempNet.C33_overlap_violated",
    "Verif.TempNet.C33_unsorted_table_violated",
    "Verif.TempNet.C33_constructor_tables",
    "Verif.Merge.C33_merged"
   ],
   "note": "Exact for sorted tables whose same-pair contacts last and do not overlap or touch; violated for overlapping contacts and for tables that are not sorted by time."
  },
  {
   "property": "C34",
   "status": "proved",
   "theorems": [
    "Verif.TempNet.C34_laplacian_rows",
    "Verif.Trans.C34_transition_stochastic",
    "Verif.TempNet.C34_self_loop_violated"
   ],
   "note": "Proved for every event list without self-loops, with the matrix exponential of Mathlib; the last theorem shows that the exclusion of self-loops is needed."
  },
  {
   "property": "C36",
   "status": "proved",
   "theorems": [
    "Verif.TempNet.C36_symmetric",
    "Verif.TempNet.C36_contact_time",
    "Verif.TempNet.C36_additive",
    "Verif.TempNet.C36_whole_window"
   ],
   "note": ""
  },
  {
   "property": "C56",
   "status": "partial",
   "theorems": [
    "Verif.TempNet.C56_path_violated",
    "Verif.TempNet.C56_path_partial",
    "Verif.TempNet.C56_relabel_violated",
    "Verif.TempNet.C56_columns",
    "Verif.TempNet.C56_consecutive_nodes_partial"
   ],
   "note": "Violated for paths and for tables whose node labels are not 0..n-1; holds for tables labelled 0..n-1."
  },
  {
   "property": "C57",
   "status": "proved",
   "theorems": [
    "Verif.TempNet.C57_instantaneous_laplacians",
    "Verif.TempNet.C57_ending_times",
    "Verif.TempNet.C57_row_sums"
   ],
   "note": ""
  },
  {
   "property": "C35",
   "status": "partial",
   "theorems": [
    "Verif.Merge.C35_terminates",
    "Verif.Merge.C35_no_overlaps_left",
    "Verif.Merge.C35_nothing_invented",
    "Verif.Merge.C35_identity_without_overlaps",
    "Verif.Merge.C35_activity_preserved_partial",
    "Verif.Merge.C35_containment_violated",
    "Verif.Merge.C35_equal_starts_violated",
    "Verif.Merge.C35_chain_violated"
   ],
   "note": "Termination, no overlaps left and nothing invented hold for all tables of lasting events. Activity is preserved when contacts of a pair start at different times, do not contain each other and overlap transitively; violated for contained contacts, equal starts and chains."
  },
  {
   "property": "C37",
   "status": "partial",
   "theorems": [
    "Verif.Trans.C37_current_partial",
    "Verif.Trans.C37_window_violated",
    "Verif.Trans.C37_fix_tau_violated",
    "Verif.Trans.C37_direction_violated"
   ],
   "note": "Holds for histories that compute the Laplacians first and always use the same options for a rate; violated when the window, fix_tau_k or the time direction changes."
  },
  {
   "property": "C38",
   "status": "proved",
   "theorems": [
    "Verif.Trans.C38_products",
    "Verif.Trans.C38_last_only",
    "Verif.Trans.C38_tolerance",
    "Verif.Trans.C38_tolerance_bound_needed"
   ],
   "note": "The last two theorems are about the rounding option."
  },
  {
   "property": "C39",
   "status": "partial",
   "theorems": [
    "Verif.Trans.C39_round_trip_partial",
    "Verif.Trans.C39_rounding_violated",
    "Verif.Trans.C39_all_rates_fail"
   ],
   "note": "Exact without rounding; violated with rounding, and saving all rates at once fails."
  },
  {
   "property": "C40",
   "status": "proved",
   "theorems": [
    "Verif.Trans.C40_negative_rejected",
    "Verif.Trans.C40_stochastic",
    "Verif.Trans.C40_end_points",
    "Verif.Trans.C40_continuous",
    "Verif.Trans.C40_sparse"
   ],
   "note": ""
  },
  {
   "property": "C41",
   "status": "proved",
   "theorems": [
    "Verif.Trans.C41_stochastic",
    "Verif.Trans.C41_components",
    "Verif.Trans.C41_invariant",
    "Verif.Trans.C41_sparse"
   ],
   "note": ""
  },
  {
   "property": "C58",
   "status": "partial",
   "theorems": [
    "Verif.Trans.C58_without_tolerance_partial",
    "Verif.Trans.C58_with_tolerance",
    "Verif.Trans.C58_tolerance_violated"
   ],
   "note": "Holds without tolerance; violated with one, C58_with_tolerance says exactly what is left."
  },
  {
   "property": "C59",
   "status": "proved",
   "theorems": [
    "Verif.Trans.C59_inter_event",
    "Verif.Trans.C59_only_contacts_matter"
   ],
   "note": ""
  },
  {
   "property": "C60",
   "status": "proved",
   "theorems": [
    "Verif.Trans.C60_by_columns",
    "Verif.Trans.C60_by_components",
    "Verif.Trans.C60_all_options",
    "Verif.Trans.C60_trimmed"
   ],
   "note": "Exact arithmetic, the exponential of Mathlib."
  },
  {
   "property": "C61",
   "status": "partial",
   "theorems": [
    "Verif.Trans.C61_linear_partial",
    "Verif.Trans.C61_empty_window_violated",
    "Verif.Trans.C61_stale_window_violated"
   ],
   "note": "Holds on a new network; violated after a change of window and for empty windows with the sparse option."
  },
  {
   "property": "C42",
   "status": "partial",
   "theorems": [
    "Verif.Info.C42_inputs",
    "Verif.Info.C42_value_partial",
    "Verif.Info.C42_metric_partial",
    "Verif.Info.C42_skipped_label_violated",
    "Verif.Info.C42_empty_cluster_violated"
   ],
   "note": "Metric on clusterings without empty clusters, in every accepted form of input; violated for dictionaries that skip a label and for lists with an empty cluster."
  },
  {
   "property": "C43",
   "status": "proved",
   "theorems": [
    "Verif.Info.C43_value",
    "Verif.Info.C43_range",
    "Verif.Info.C43_one_cluster"
   ],
   "note": ""
  },
  {
   "property": "C44",
   "status": "proved",
   "theorems": [
    "Verif.Info.C44_increasing",
    "Verif.Info.C44_repeated",
    "Verif.Info.C44_sets"
   ],
   "note": ""
  },
  {
   "property": "C45",
   "status": "partial",
   "theorems": [
    "Verif.Info.C45_counts_partial",
    "Verif.Info.C45_no_value",
    "Verif.Info.C45_none"
   ],
   "note": "The property is false of the code: the negation is proved. The counts of which the distance is made are computed correctly; they are not returned."
  },
  {
   "property": "C46",
   "status": "proved",
   "theorems": [
    "Verif.Info.C46_permutation",
    "Verif.Info.C46_same_clusters",
    "Verif.Info.C46_first",
    "Verif.Info.C46_diverges",
    "Verif.Info.C46_failures"
   ],
   "note": "The last two theorems show that the threshold of at most 1 and the nonempty inputs are needed."
  },
  {
   "property": "C62",
   "status": "partial",
   "theorems": [
    "Verif.Info.C62_vectors",
    "Verif.Info.C62_matrices",
    "Verif.Info.C62_parallel_violated",
    "Verif.Info.C62_parallel_wrong"
   ],
   "note": "Holds for the vector and matrix versions; violated by the parallel version."
  },
  {
   "property": "C63",
   "status": "proved",
   "theorems": [
    "Verif.Info.C63_average",
    "Verif.Info.C63_draw_possible"
   ],
   "note": ""
  },
  {
   "property": "C47",
   "status": "partial",
   "theorems": [
    "Verif.Flow.C47_integral",
    "Verif.Flow.C47_grid",
    "Verif.Flow.C47_clustered_partial",
    "Verif.Flow.C47_whole_time",
    "Verif.Flow.C47_window_violated",
    "Verif.Flow.C47_window_lengths",
    "Verif.Flow.C47_grid_start_violated",
    "Verif.Flow.C47_grid_interval_violated"
   ],
   "note": "Holds for one more time than matrices and grids that start at the first time, without two times in one interval; violated otherwise, in particular for transition matrices of a time window."
  },
  {
   "property": "C48",
   "status": "partial",
   "theorems": [
    "Verif.Synth.C48_well_formed",
    "Verif.Synth.C48_order",
    "Verif.Synth.C48_second_run_violated",
    "Verif.Synth.C48_negative_id_violated"
   ],
   "note": "Proved for one run of a population with IDs from 0 to N-1; violated by a second run of the same object and by negative IDs, which are accepted."
  },
  {
   "property": "C64",
   "status": "proved",
   "theorems": [
    "Verif.Synth.C64_complete"
   ],
   "note": ""
  },
  {
   "property": "C65",
   "status": "proved",
   "theorems": [
    "Verif.Synth.C65_partners"
   ],
   "note": "Groups by position in the list of individuals; C97 treats lists that are not in the order of the IDs."
  },
  {
   "property": "C66",
   "status": "partial",
   "theorems": [
    "Verif.Synth.C66_no_failure",
    "Verif.Synth.C66_ends",
    "Verif.Synth.C66_empty_row_violated"
   ],
   "note": "Violated for rows of zeros. That a draw from a nonempty set of partners succeeds after finitely many attempts is assumed."
  },
  {
   "property": "C67",
   "status": "proved",
   "theorems": [
    "Verif.Synth.C67_activations",
    "Verif.Synth.C67_partner_found"
   ],
   "note": ""
  },
  {
   "property": "C49",
   "status": "partial",
   "theorems": [
    "Verif.Scripts.C49_batches",
    "Verif.Scripts.C49_work",
    "Verif.Scripts.C49_slices",
    "Verif.Scripts.C49_number_of_slices",
    "Verif.Scripts.C49_matrices",
    "Verif.Scripts.C49_whole_network",
    "Verif.Scripts.C49_length_violated"
   ],
   "note": "Proved for positive slice lengths; for a length of zero or less the loop never ends, as proved."
  },
  {
   "property": "C50",
   "status": "partial",
   "theorems": [
    "Verif.Scripts.C50_resumed_partial",
    "Verif.Scripts.C50_first_run",
    "Verif.Scripts.C50_torn_temp",
    "Verif.Scripts.C50_grid",
    "Verif.Scripts.C50_both_kinds_violated",
    "Verif.Scripts.C50_both_kinds_reached_violated",
    "Verif.Scripts.C50_torn_violated",
    "Verif.Scripts.C50_torn_reached_violated",
    "Verif.Scripts.C50_grid_too_fine_violated",
    "Verif.Scripts.C50_grid_end_violated"
   ],
   "note": "Proved for one kind of transition matrix and runs killed between writes; violated when both kinds are computed (the default), and for runs killed during a write."
  },
  {
   "property": "C51",
   "status": "partial",
   "theorems": [
    "Verif.Scripts.Cluster.C51_resumed_partial",
    "Verif.Scripts.Cluster.C51_first_run",
    "Verif.Scripts.Cluster.C51_kept",
    "Verif.Scripts.Cluster.C51_violated",
    "Verif.Scripts.Cluster.C51_reached_violated"
   ],
   "note": "Holds without intermediate files; violated by every run killed after or while it saved intermediate clusterings, as proved for all later histories."
  },
  {
   "property": "C68",
   "status": "proved",
   "theorems": [
    "Verif.Scripts.Cluster.C68_summary",
    "Verif.Scripts.Cluster.C68_number_of_pairs"
   ],
   "note": ""
  },
  {
   "property": "C69",
   "status": "partial",
   "theorems": [
    "Verif.SparseLouvain.C69_stability_exact",
    "Verif.SparseLouvain.C69_phase_partial",
    "Verif.SparseLouvain.C69_no_worse_partial",
    "Verif.SparseLouvain.C69_all_zeros",
    "Verif.SparseLouvain.C69_same_as_dense_partial",
    "Verif.SparseLouvain.C69_from_transitions_partial",
    "Verif.SparseLouvain.C69_empty_row_violated"
   ],
   "note": "Proved for positive stored entries and no empty row; a row without stored entries is accepted by the constructor and breaks the property, as proved."
  },
  {
   "property": "C70",
   "status": "partial",
   "theorems": [
    "Verif.Comps.C70_components_partition",
    "Verif.Comps.C70_ranking",
    "Verif.Comps.C70_reported_shift_partial",
    "Verif.Comps.C70_no_worse_partial",
    "Verif.Comps.C70_largest_partial",
    "Verif.Comps.C70_reported_violated"
   ],
   "note": "Partition, respect of components and ranking proved without restriction on the data; the reported stability is violated, with the exact kind of error proved. C70_no_worse_partial and C70_largest_partial need that the pieces do not pass the all-zeros test."
  },
  {
   "property": "C71",
   "status": "proved",
   "theorems": [
    "Verif.Comps.C71_whole",
    "Verif.Comps.C71_components",
    "Verif.Comps.C71_flag_needed"
   ],
   "note": "C71_flag_needed shows that the symmetric flag, which the script always sets, is needed."
  },
  {
   "property": "C72",
   "status": "partial",
   "theorems": [
    "Verif.Scripts.Load.C72_loaded_partial",
    "Verif.Scripts.Load.C72_end_to_end_partial",
    "Verif.Scripts.Load.C72_normalised",
    "Verif.Scripts.Load.C72_init_partial",
    "Verif.Scripts.Load.C72_rows",
    "Verif.Scripts.Load.C72_filled",
    "Verif.Scripts.Load.C72_not_filled",
    "Verif.Scripts.Load.C72_tolerance",
    "Verif.Scripts.Load.C72_tolerance_violated",
    "Verif.Scripts.Load.C72_init_violated"
   ],
   "note": "Proved without tolerance; with a tolerance, or with initial probabilities, every file of run_cov_integrals is rejected, as proved. C72_init_partial is about files with initial probabilities that other programs may write."
  },
  {
   "property": "C73",
   "status": "partial",
   "theorems": [
    "Verif.Static.C73_undirected",
    "Verif.Static.C73_probabilities",
    "Verif.Static.C73_refused_iff",
    "Verif.Static.C73_modularity",
    "Verif.Static.C73_resolution",
    "Verif.Static.C73_louvain",
    "Verif.Static.C73_directed_partial",
    "Verif.Static.C73_other_eigenvalue_violated",
    "Verif.Static.C73_directed_violated",
    "Verif.Static.C73_discrete_violated"
   ],
   "note": "Undirected networks without restriction; directed networks need a solver that returns the eigenvalue one, and fail for every other eigenvalue, as proved."
  },
  {
   "property": "C74",
   "status": "partial",
   "theorems": [
    "Verif.Static.C74_results",
    "Verif.Static.C74_independent",
    "Verif.Static.C74_start_ignored",
    "Verif.Static.C74_given_partition_lost"
   ],
   "note": "Proved for matrices without zero rows; a partition held by the given object is lost, as proved."
  },
  {
   "property": "C75",
   "status": "proved",
   "theorems": [
    "Verif.Bipart.C75_clustered",
    "Verif.Bipart.C75_move_exact",
    "Verif.Bipart.C75_refused_iff",
    "Verif.Bipart.C75_zero_sums",
    "Verif.Bipart.C75_optimal_flow",
    "Verif.Bipart.C75_smaller_matching_better"
   ],
   "note": "C75_smaller_matching_better shows that the best full matching can be worse than one that leaves clusters alone."
  },
  {
   "property": "C76",
   "status": "partial",
   "theorems": [
    "Verif.SaveLoad.C76_round_trip_partial",
    "Verif.SaveLoad.C76_constructed",
    "Verif.SaveLoad.C76_merged_constructed",
    "Verif.SaveLoad.C76_lists",
    "Verif.SaveLoad.C76_merged",
    "Verif.SaveLoad.C76_names",
    "Verif.SaveLoad.C76_extension",
    "Verif.SaveLoad.C76_other_files",
    "Verif.SaveLoad.C76_inst_violated",
    "Verif.SaveLoad.C76_names_violated",
    "Verif.SaveLoad.C76_kept_names"
   ],
   "note": "Proved for continuous-time networks, with the exact differences for merged ones and the exact result for all lists of names; violated for instantaneous networks and for file names with a dot."
  },
  {
   "property": "C77",
   "status": "partial",
   "theorems": [
    "Verif.Triu.C77_normalised_partial",
    "Verif.Triu.C77_row",
    "Verif.Triu.C77_pattern",
    "Verif.Triu.C77_ratios",
    "Verif.Triu.C77_idempotent",
    "Verif.Triu.C77_refused",
    "Verif.Triu.C77_violated",
    "Verif.Triu.C77_zero_target_violated"
   ],
   "note": "Proved for matrices in which no row of the triangle sums to zero when its turn comes; C77_row says exactly what the other rows get. Violated by the two by two matrix of ones."
  },
  {
   "property": "C78",
   "status": "partial",
   "theorems": [
    "Verif.Parallel.C78_dense",
    "Verif.Parallel.C78_sparse_partial",
    "Verif.Parallel.C78_failures",
    "Verif.Parallel.C78_asymmetric_violated",
    "Verif.Parallel.C78_defaults_violated",
    "Verif.Parallel.C78_shared_T",
    "Verif.Parallel.C78_shared_cov_violated"
   ],
   "note": "Proved for dense objects and for sparse objects whose joint probabilities are symmetric. Violated for sparse objects built from other transition matrices (treated as symmetric by the processes) and for sparse objects built from a covariance alone (its probabilities are replaced)."
  },
  {
   "property": "C79",
   "status": "partial",
   "theorems": [
    "Verif.MatFiles.C79_T_partial",
    "Verif.MatFiles.C79_inter_partial",
    "Verif.MatFiles.C79_rejected",
    "Verif.MatFiles.C79_inter_rejected",
    "Verif.MatFiles.C79_stem",
    "Verif.MatFiles.C79_mixed_violated",
    "Verif.MatFiles.C79_stale_violated",
    "Verif.MatFiles.C79_name_violated",
    "Verif.MatFiles.C79_not_replaced_violated",
    "Verif.MatFiles.C79_all_rates_violated",
    "Verif.MatFiles.C79_network_changed_violated"
   ],
   "note": "Proved for tables of one kind and names that the loader accepts (the exact condition is Fits), and for lists of compressed matrices; the failures outside are proved one by one."
  },
  {
   "property": "C80",
   "status": "partial",
   "theorems": [
    "Verif.Laps.C80_names",
    "Verif.Laps.C80_resumed_partial",
    "Verif.Laps.C80_same_files",
    "Verif.Laps.C80_never_overwritten",
    "Verif.Laps.C80_torn_violated",
    "Verif.Laps.C80_more_asked_violated",
    "Verif.Laps.C80_alike_violated",
    "Verif.Laps.C80_in_place_violated"
   ],
   "note": "Proved for all histories of stopped runs with the same options; content exact when matrices are not rounded in place, otherwise up to the rounding, as the violation shows. Files cut off, changed options and waiting times written alike are proved failures."
  },
  {
   "property": "C81",
   "status": "partial",
   "theorems": [
    "Verif.EndToEnd.C81_pipeline_partial",
    "Verif.EndToEnd.C81_used_instance_partial",
    "Verif.EndToEnd.C81_integer_times",
    "Verif.EndToEnd.C81_default_scale_accepted",
    "Verif.EndToEnd.C81_window_violated",
    "Verif.EndToEnd.C81_window_change_violated",
    "Verif.EndToEnd.C81_default_scale_violated",
    "Verif.EndToEnd.C81_no_scale_violated",
    "Verif.EndToEnd.C81_linear_violated",
    "Verif.Mirror.C81_search"
   ],
   "note": "Proved for all non-overlapping contacts, all positive time scales, both directions, no window; joins the models behind C06-C10, C33, C34, C47, C59 and C29. With a window the last step raises, a window set later is ignored, a time scale None or the linear approximation makes set_flow_clustering raise."
  },
  {
   "property": "C82",
   "status": "partial",
   "theorems": [
    "Verif.LinTrans.C82_linear_partial",
    "Verif.LinTrans.C82_default_rate_violated",
    "Verif.LinTrans.C82_cached",
    "Verif.LinTrans.C82_direction_violated",
    "Verif.LinTrans.C82_retry_violated",
    "Verif.LinTrans.C82_truncated_violated"
   ],
   "note": "proved for every session that keeps window, fix_tau_k and, per rate and t_s, direction and save_intermediate; the code violates the rest: default rate, changed direction, retry after an exception"
  },
  {
   "property": "C83",
   "status": "partial",
   "theorems": [
    "Verif.LinTrans.C83_linear_partial",
    "Verif.LinTrans.C83_exact_partial",
    "Verif.LinTrans.C83_keyword_refused"
   ],
   "note": "proved for every session that keeps its options; a changed window, direction or save_intermediate is ignored by the caches (C37, C82)"
  },
  {
   "property": "C84",
   "status": "partial",
   "theorems": [
    "Verif.FlowRuns.C84_stopped_partial",
    "Verif.FlowRuns.C84_attribute",
    "Verif.FlowRuns.C84_save_harmless",
    "Verif.FlowRuns.C84_progress_partial",
    "Verif.FlowRuns.C84_stale_violated",
    "Verif.FlowRuns.C84_raised_violated",
    "Verif.FlowRuns.C84_supplied_progress_violated",
    "Verif.FlowRuns.C84_negligible_progress_violated"
   ],
   "note": "Proved for every run from the default partition with a covariance that is not negligible, at every stop point; the attribute partition lags behind compute_stability after a stop or an exception, supplied partitions can lose stability, and a negligible covariance ends the recorded progress too early. Dense class."
  },
  {
   "property": "C85",
   "status": "partial",
   "theorems": [
    "Verif.FlowRuns.C85_stored_partial",
    "Verif.FlowRuns.C85_frozen",
    "Verif.FlowRuns.C85_other_intervals",
    "Verif.FlowRuns.C85_first_call_partial",
    "Verif.FlowRuns.C85_early_failure",
    "Verif.FlowRuns.C85_inputs",
    "Verif.FlowRuns.C85_stuck_violated",
    "Verif.FlowRuns.C85_stopped_violated",
    "Verif.FlowRuns.C85_repeat_violated",
    "Verif.FlowRuns.C85_negative_index_violated"
   ],
   "note": "Proved for every session, also with stopped and failing calls; an interval whose run was stopped never gets a partition, a second call for an interval is ignored, and an index counted from the end combines the covariance of one interval with the transition matrix of another. Dense matrices."
  },
  {
   "property": "C86",
   "status": "partial",
   "theorems": [
    "Verif.Sharing.C86_independent",
    "Verif.Sharing.C86_created",
    "Verif.Sharing.C86_from_list_partial",
    "Verif.Sharing.C86_runs_keep",
    "Verif.Sharing.C86_shared_violated",
    "Verif.Sharing.C86_caller_violated"
   ],
   "note": "Partitions made by default, from a dictionary or by find_louvain_clustering are independent of everything else in the program; partitions made from a list of clusters are so exactly when the list is used once and not changed afterwards: two partitions of one list share its sets, and a move in one breaks the other and changes the list of the caller (proved for every list)."
  },
  {
   "property": "C87",
   "status": "partial",
   "theorems": [
    "Verif.Bipart.C87_visit",
    "Verif.Bipart.C87_moves_exact",
    "Verif.Bipart.C87_aggregated",
    "Verif.Bipart.C87_aggregate_fails_iff_violated"
   ],
   "note": "For every class built on BaseClustering: the node-moving phase ends, keeps both partitions valid, is greedy and reports its gain exactly. Violated: the aggregated clustering cannot be constructed when the numbers of source and target clusters differ (exact condition proved)."
  },
  {
   "property": "C88",
   "status": "partial",
   "theorems": [
    "Verif.Widths.C88_python_operations",
    "Verif.Widths.C88_compiled_operations_violated",
    "Verif.Widths.C88_compiled_operations_partial",
    "Verif.Widths.C88_python_chain",
    "Verif.Widths.C88_compiled_chain_partial",
    "Verif.Widths.C88_compiled_chain_violated"
   ],
   "note": "With the Python helper routines matrices stay usable after row normalisation and the cumulative matrices are the products. With the compiled routines a normalised matrix has 64-bit indices that addition, subtraction and product refuse; compute_transition_matrices on compressed matrices raises for three or more inter-event matrices (two with a tolerance), and a second call returns without completing. Exact conditions proved."
  },
  {
   "property": "C89",
   "status": "partial",
   "theorems": [
    "Verif.Backends.C89_compiled",
    "Verif.Backends.C89_stability_violated",
    "Verif.Backends.C89_vectors_violated",
    "Verif.Backends.C89_scalars_partial"
   ],
   "note": "With the compiled routines the model is that of C69. With the Python replacements compute_stability raises AttributeError for every partition of at least one node; the search raises AttributeError for every covariance with vectors and at least one pass, and, for numbers and the default start, exactly when two different nodes share a stored value; in all other cases of the default start both versions agree."
  },
  {
   "property": "C90",
   "status": "partial",
   "theorems": [
    "Verif.Helpers.C90_outer_partial",
    "Verif.Helpers.C90_outer_violated",
    "Verif.Helpers.C90_outer_argument",
    "Verif.Helpers.C90_row_normalize",
    "Verif.Helpers.C90_row_normalize_violated",
    "Verif.Helpers.C90_ones",
    "Verif.Helpers.C90_forward"
   ],
   "note": "Dense meaning proved for every row and matrix. Violated: sparse_outer raises exactly for rows without values and, without triu, for rows with one value; csc_row_normalize changes a CSR matrix of the caller; compute_S_0t0 raises exactly where a final probability is zero."
  },
  {
   "property": "C91",
   "status": "proved",
   "theorems": [
    "Verif.Helpers.C91_rebuild",
    "Verif.Helpers.C91_round_trip"
   ],
   "note": "Exact condition for success, dense meaning of the result and round trip, for every well-formed square matrix and every list of rows."
  },
  {
   "property": "C92",
   "status": "partial",
   "theorems": [
    "Verif.Spectral.C92_regular_partial",
    "Verif.Spectral.C92_regular_violated",
    "Verif.Spectral.C92_complete_violated",
    "Verif.Spectral.C92_symmetric_iff_regular_violated"
   ],
   "note": "For connected graphs with equal degrees the result is the gap if it is below one and minus one if it is above one (every complete graph); for graphs with different degrees the matrix handed to the symmetric eigenvalue routine is not symmetric, so nothing is promised. The eigenvalue routine is represented by what it promises for symmetric matrices."
  },
  {
   "property": "C93",
   "status": "partial",
   "theorems": [
    "Verif.Memory.C93_block",
    "Verif.Memory.C93_aggregate",
    "Verif.Memory.C93_gain_inside_iff",
    "Verif.Memory.C93_gain_value_partial",
    "Verif.Memory.C93_normalize",
    "Verif.Memory.C93_rebuild",
    "Verif.Memory.C93_add_sub",
    "Verif.Memory.C93_from_full_inside_iff",
    "Verif.Memory.C93_from_full_partial",
    "Verif.Memory.C93_from_full_violated"
   ],
   "note": "Every array access of the compiled routines is modelled. Restoring, adding, subtracting, aggregating and normalising stay inside their arrays and give the dense result for all well-formed matrices. Exact conditions for the other three: a block sum reads outside for a row that does not exist, a gain reads outside when the row of the node and all later rows store nothing, and the extraction of the kept block writes outside when the rows left out store fewer entries than there are such rows (always for diagonal value 0 with a zero row and column and at least as many entries as rows)."
  },
  {
   "property": "C94",
   "status": "partial",
   "theorems": [
    "Verif.DenseMem.C94_gains",
    "Verif.DenseMem.C94_gains_stray_iff",
    "Verif.DenseMem.C94_unknown_node_violated",
    "Verif.DenseMem.C94_matrix_inside_iff",
    "Verif.DenseMem.C94_matrix_same",
    "Verif.DenseMem.C94_constructor_partial",
    "Verif.DenseMem.C94_lengths_violated",
    "Verif.DenseMem.C94_round_trip",
    "Verif.DenseMem.C94_mutual_information",
    "Verif.DenseMem.C94_mutual_information_call",
    "Verif.DenseMem.C94_indicator"
   ],
   "note": "Every array access of the dense compiled routines is modelled next to the numpy versions. Inside the arrays and equal for distributions of the right length and existing nodes; exact conditions for stray accesses. Violated: lengths of p1 and p2 are not compared with T when p2 is given, and clusters may list nodes that do not exist."
  },
  {
   "property": "C95",
   "status": "partial",
   "theorems": [
    "Verif.Races.C95_any_order",
    "Verif.Races.C95_whole_updates",
    "Verif.Races.C95_one_thread",
    "Verif.Races.C95_lost_updates_violated",
    "Verif.Races.C95_measure_partial",
    "Verif.Races.C95_measure_violated"
   ],
   "note": "Loads and stores of the threads in any order: the element ends as the start minus a nonempty part of the terms; the whole sum if updates are not interrupted or there is one thread; lost updates occur for a suitable order whenever two threads have work, and the measure is then wrong."
  },
  {
   "property": "C96",
   "status": "partial",
   "theorems": [
    "Verif.ExpmArrays.C96_reconstruction",
    "Verif.ExpmArrays.C96_stack",
    "Verif.ExpmArrays.C96_columns",
    "Verif.ExpmArrays.C96_column_options",
    "Verif.ExpmArrays.C96_serial",
    "Verif.ExpmArrays.C96_options",
    "Verif.ExpmArrays.C96_parallel_partial",
    "Verif.ExpmArrays.C96_csr_violated",
    "Verif.ExpmArrays.C96_walk_violated"
   ],
   "note": "Arrays of the blocks, of the stacked columns and of the rebuilt matrix. The serial version returns the exponential for both formats; the parallel one returns the same arrays for CSC. Violated for CSR arguments with blocks below 1000 nodes: the exponential of the transposed matrix is returned, and after normalisation one-way transitions vanish."
  },
  {
   "property": "C97",
   "status": "partial",
   "theorems": [
    "Verif.SynthRuns.C97_made",
    "Verif.SynthRuns.C97_defaults",
    "Verif.SynthRuns.C97_made_violated",
    "Verif.SynthRuns.C97_positions",
    "Verif.SynthRuns.C97_own_partial",
    "Verif.SynthRuns.C97_groups_violated",
    "Verif.SynthRuns.C97_example_violated"
   ],
   "note": "Own parameters and groups for lists in the order of the IDs. For all lists: parameters of the individual at the position given by the ID. Violated for lists in another order, up to contacts that all join different groups, and for the class lists after a refused individual."
  },
  {
   "property": "C98",
   "status": "partial",
   "theorems": [
    "Verif.SynthRuns.C98_same_run",
    "Verif.SynthRuns.C98_all_states",
    "Verif.SynthRuns.C98_exact_partial",
    "Verif.SynthRuns.C98_saved_same",
    "Verif.SynthRuns.C98_saved_partial",
    "Verif.SynthRuns.C98_frequency_violated",
    "Verif.SynthRuns.C98_same_time_violated"
   ],
   "note": "Same run, times and contents of the saved matrices for all runs; exact contents if nothing is due at the time just treated. Violated: events at the same time; distances between saved states can be arbitrarily small for every dt."
  },
  {
   "property": "C99",
   "status": "partial",
   "theorems": [
    "Verif.SynthRuns.C99_kept",
    "Verif.SynthRuns.C99_again_partial",
    "Verif.SynthRuns.C99_blocked_violated"
   ],
   "note": "Recorded contacts are kept; after a run that ends with nobody in contact the second run is a new simulation with the rest of the tape. Violated for all runs: pairs in contact at the end of the first run begin no contact in the second."
  },
  {
   "property": "C100",
   "status": "proved",
   "theorems": [
    "Verif.Rounding.C100_constructed",
    "Verif.Rounding.C100_any_arithmetic",
    "Verif.Rounding.C100_one_node",
    "Verif.Rounding.C100_exact",
    "Verif.Rounding.C100_nan"
   ],
   "note": "The number operations are parameters without laws. C100_exact ties the model to the exact one used for C26 to C30."
  },
  {
   "property": "C101",
   "status": "partial",
   "theorems": [
    "Verif.Rounding.C101_gain_error_partial",
    "Verif.Rounding.C101_loss_bounded_partial",
    "Verif.Rounding.C101_double_violated"
   ],
   "note": "Error bounds for every arithmetic with bounded relative error (instantiated for 53-bit binary arithmetic with rounding to nearest even). Violated in double precision with the compiled sums and with numpy. Gradual underflow is not modelled."
  },
  {
   "property": "C102",
   "status": "partial",
   "theorems": [
    "Verif.Rounding.C102_progress_partial",
    "Verif.Rounding.C102_cycle_violated"
   ],
   "note": "Strict progress if the threshold is at least the rounding error of a sweep. Violated in double precision with the default threshold, for every limit of sweeps."
  },
  {
   "property": "C103",
   "status": "proved",
   "theorems": [
    "Verif.SparseFlow.C103_values",
    "Verif.SparseFlow.C103_integral",
    "Verif.SparseFlow.C103_default"
   ],
   "note": "Arrays refine the value-level model of C47; the bound covers the trimming of small entries. Numbers and square roots are exact."
  },
  {
   "property": "C104",
   "status": "partial",
   "theorems": [
    "Verif.SparseFlow.C104_find_partial",
    "Verif.SparseFlow.C104_zero_probability_violated"
   ],
   "note": "Holds if rtol is below the smallest starting probability. Violated for all flows in which the last node starts with probability zero: the search never returns a partition."
  },
  {
   "property": "C105",
   "status": "partial",
   "theorems": [
    "Verif.SparseFlow.C105_bound_partial",
    "Verif.SparseFlow.C105_large_network_violated"
   ],
   "note": "Bound on the stability of every partition of a covariance that passes for zero. Violated for all networks of two separate halves of at least 5000 nodes each."
  },
  {
   "property": "C106",
   "status": "proved",
   "theorems": [
    "Verif.FloatTrans.C106_no_drift",
    "Verif.FloatTrans.C106_normalised",
    "Verif.FloatTrans.C106_error_linear",
    "Verif.FloatTrans.C106_final",
    "Verif.FloatTrans.C106_double"
   ],
   "note": "Sparse rows, tol=None. Arithmetic with relative rounding error, gradual underflow and arbitrary results beyond an overflow bound; double precision is shown to be such an arithmetic. Compressed SparseStochMat products and the trimming of small values are not part of this model."
  },
  {
   "property": "C107",
   "status": "proved",
   "theorems": [
    "Verif.FlowStability.C107_help",
    "Verif.FlowStability.C107_lamda",
    "Verif.FlowStability.C107_rates"
   ],
   "note": ""
  },
  {
   "property": "C108",
   "status": "proved",
   "theorems": [
    "Verif.Synth.C108_no_failure",
    "Verif.Synth.C108_contacts",
    "Verif.Synth.C108_start",
    "Verif.Synth.C108_warning",
    "Verif.Synth.C108_documented_length_violated"
   ],
   "note": "The docstring exchanges the meaning of deltat1 and deltat2; the property is stated for the code, and the last theorem shows the difference."
  },
  {
   "property": "C109",
   "status": "partial",
   "theorems": [
    "Verif.FloatFlow.C109_error_partial",
    "Verif.FloatFlow.C109_given_partial",
    "Verif.FloatFlow.C109_stability_partial",
    "Verif.FloatFlow.C109_double",
    "Verif.FloatFlow.C109_tiny_violated",
    "Verif.FloatFlow.C109_silent_violated",
    "Verif.FloatFlow.C109_double_violated",
    "Verif.FloatFlow.C109_symmetric_violated"
   ],
   "note": "The error bounds hold for probabilities and lengths that are zero or between 2^(-100) and 2^100 (C109_double), in general under a condition on the exponent range (C109_error_partial). Covariances are NaN as soon as the reciprocal of a computed probability overflows, for all inputs (C109_tiny_violated), and the clustering of NaN leaves every node alone without an error (C109_silent_violated). They are not symmetric (C109_symmetric_violated)."
  },
  {
   "property": "C110",
   "status": "partial",
   "theorems": [
    "Verif.StaticSparse.C110_same_partial",
    "Verif.StaticSparse.C110_last_isolated_violated",
    "Verif.StaticSparse.C110_stored_violated"
   ],
   "note": "Equality of sparse and dense clustering if every node has an edge (C110_same_partial). For all networks whose last node has none, all times and options, the search reads outside the arrays once the first pass has merged enough (C110_last_isolated_violated)."
  },
  {
   "property": "C111",
   "status": "partial",
   "theorems": [
    "Verif.NviReport.C111_whole_partial",
    "Verif.NviReport.C111_largest_partial",
    "Verif.NviReport.C111_separate_partial",
    "Verif.NviReport.C111_static_partial",
    "Verif.NviReport.C111_static_one_outside_partial",
    "Verif.NviReport.C111_dropped_violated",
    "Verif.NviReport.C111_static_violated",
    "Verif.NviReport.C111_above_one_violated"
   ],
   "note": "The means are right without options for components, for the temporal network with only_largest_comp, and for the static network unless only_largest_comp is given. C111_separate_partial gives the factor with separate_comps. The violations hold for all inputs that meet the stated conditions on the sizes."
  },
  {
   "property": "C112",
   "status": "partial",
   "theorems": [
    "Verif.NviReport.C112_same_partial",
    "Verif.NviReport.C112_saved_iff",
    "Verif.NviReport.C112_lost_violated"
   ],
   "note": "Same temporal result if the static clusterings succeed; C112_saved_iff says exactly when a result is saved; for intervals without contacts it never is (C112_lost_violated)."
  },
  {
   "property": "C113",
   "status": "partial",
   "theorems": [
    "Verif.SparseRound.C113_any_arithmetic_partial",
    "Verif.SparseRound.C113_safe_partial",
    "Verif.SparseRound.C113_phase_iff",
    "Verif.SparseRound.C113_empty_last_violated",
    "Verif.SparseRound.C113_dropped_row_iff",
    "Verif.SparseRound.C113_exact",
    "Verif.SparseRound.C113_zero_weight_violated"
   ],
   "note": "A valid partition or a read outside the arrays in any arithmetic (C113_any_arithmetic_partial); no such read for positive stored numbers in every row (C113_safe_partial). Exact conditions for the read in a phase (C113_phase_iff) and for its cause after an aggregation (C113_dropped_row_iff); it happens for all inputs with an empty last row (C113_empty_last_violated) and for a stored zero (C113_zero_weight_violated). C113_exact ties the model to that of C69."
  },
  {
   "property": "C114",
   "status": "partial",
   "theorems": [
    "Verif.SparseRound.C114_gain_error_partial",
    "Verif.SparseRound.C114_loss_bounded_partial",
    "Verif.SparseRound.C114_double_violated"
   ],
   "note": "Error of one gain (C114_gain_error_partial) and of the whole call (C114_loss_bounded_partial); doubleS_rounds shows that double precision meets the assumptions, and C114_double_violated gives an input that meets all of them and ends worse than it starts."
  },
  {
   "property": "C115",
   "status": "partial",
   "theorems": [
    "Verif.Subst.C115_rows_after",
    "Verif.Subst.C115_reaches_target_iff",
    "Verif.Subst.C115_agrees_iff",
    "Verif.Subst.C115_stochastic_violated",
    "Verif.Subst.C115_single_entries_partial"
   ],
   "note": "The exact effect of the routine, the exact conditions for a row to reach its target and for agreement with the routine in use, and failure for every row of sum 1 with two or more stored entries."
  },
  {
   "property": "C116",
   "status": "partial",
   "theorems": [
    "Verif.Logs.C116_set_log_level",
    "Verif.Logs.C116_unknown_name",
    "Verif.Logs.C116_shown_iff",
    "Verif.Logs.C116_setup_violated",
    "Verif.Logs.C116_configured_root_violated",
    "Verif.Logs.C116_written_twice",
    "Verif.Logs.C116_paths"
   ],
   "note": "Proved for set_log_level without root handlers, unknown names and paths. Violated for setup_logger after the import and with a configured root logger, in each case for all histories; C116_shown_iff gives the exact condition."
  },
  {
   "property": "C117",
   "status": "partial",
   "theorems": [
    "Verif.FlowStability.C117_time_direction",
    "Verif.FlowStability.C117_window",
    "Verif.FlowStability.C117_results_partial",
    "Verif.FlowStability.C117_wrong_direction_violated",
    "Verif.FlowStability.C117_network",
    "Verif.FlowStability.C117_time_scale_frame",
    "Verif.FlowStability.C117_set_time_scale",
    "Verif.FlowStability.C117_constructor"
   ],
   "note": "For every reachable or unreachable object and every value. Violated for a clustering of the wrong direction, where the documentation promises None and a warning."
  },
  {
   "property": "C118",
   "status": "partial",
   "theorems": [
    "Verif.Partition.C118_as_given",
    "Verif.Partition.C118_count",
    "Verif.Partition.C118_refused",
    "Verif.Partition.C118_index_error_iff",
    "Verif.Partition.C118_negative_violated"
   ],
   "note": "C118_as_given for all valid arguments; for dictionaries with negative values the exact condition for IndexError and the exact grouping otherwise (C118_negative_violated)."
  },
  {
   "property": "C119",
   "status": "partial",
   "theorems": [
    "Verif.TempNet.C119_start",
    "Verif.TempNet.C119_reaches_stop_iff",
    "Verif.TempNet.C119_stop_violated"
   ],
   "note": "The start is covered. The end is covered exactly if it is an event time or not after the first (C119_reaches_stop_iff); for all others the window stops short (C119_stop_violated)."
  },
  {
   "property": "C120",
   "status": "proved",
   "theorems": [
    "Verif.Units.C120_gaps",
    "Verif.Units.C120_default_rate",
    "Verif.Units.C120_no_rate"
   ],
   "note": "The median is specified by the two middle elements of the sorted differences."
  },
  {
   "property": "C121",
   "status": "partial",
   "theorems": [
    "Verif.Units.C121_laplacians",
    "Verif.Units.C121_default_rate",
    "Verif.Units.C121_matrices",
    "Verif.Units.C121_flow",
    "Verif.Units.C121_communities",
    "Verif.Units.C121_fix_tau_violated",
    "Verif.Units.C121_inst_violated",
    "Verif.Units.C121_inst_rate_violated"
   ],
   "note": "Proved for continuous networks, all call histories that use the interval lengths, and the flow integral. Violated with fix_tau_k and for instantaneous networks, in both cases for all inputs and all changes of the unit. Numbers are exact."
  },
  {
   "property": "C122",
   "status": "proved",
   "theorems": [
    "Verif.Rename.C122_numbering",
    "Verif.Rename.C122_laplacians",
    "Verif.Rename.C122_matrices",
    "Verif.Rename.C122_expm",
    "Verif.Rename.C122_flow",
    "Verif.Rename.C122_stability",
    "Verif.Rename.C122_best",
    "Verif.Rename.C122_communities"
   ],
   "note": "Relation between two runs. In C122_matrices the exponential is any pair of functions that commute with the renumbering; the matrix exponential over the reals is one (C122_expm). Numbers are exact. The clusters found by one run of the search depend on the order in which its random generator visits the nodes; the claim is about the objective and its best partitions."
  },
  {
   "property": "C123",
   "status": "proved",
   "theorems": [
    "Verif.Rename.C123_values",
    "Verif.Rename.C123_same"
   ],
   "note": "On the stored arrays. sparse_dot_mkl itself is modelled as the exact product restricted to the upper triangle. Numbers are exact."
  },
  {
   "property": "C124",
   "status": "partial",
   "theorems": [
    "Verif.Seeds.C124_seeds",
    "Verif.Seeds.C124_covered",
    "Verif.Seeds.C124_seeded",
    "Verif.Seeds.C124_history",
    "Verif.Seeds.C124_shared",
    "Verif.Seeds.C124_flow",
    "Verif.Seeds.C124_multi_partial",
    "Verif.Seeds.C124_parallel",
    "Verif.Seeds.C124_multi_violated",
    "Verif.Seeds.C124_reported_violated",
    "Verif.Seeds.C124_again_violated"
   ],
   "note": "Dense and sparse class share one model of the inherited search. Violated by run_multi_louvain with rnd_seed among the keyword arguments, proved for all inputs and with a case in which the reported seeds find other clusters. C124_parallel is for the dense class. Seeds are integers; arrays of integers are not modelled."
  },
  {
   "property": "C125",
   "status": "proved",
   "theorems": [
    "Verif.Listing.C125_network",
    "Verif.Listing.C125_laplacians",
    "Verif.Listing.C125_matrices",
    "Verif.Listing.C125_instantaneous",
    "Verif.Listing.C125_static"
   ],
   "note": "For contacts that end when they start, the order of their two rows in the time grid must not depend on their place in the list (hypothesis Steady); with pandas it does not. Numbers are exact."
  },
  {
   "property": "C126",
   "status": "proved",
   "theorems": [
    "Verif.Decay.C126_step",
    "Verif.Decay.C126_integrals",
    "Verif.Decay.C126_stability",
    "Verif.Decay.C126_bounds",
    "Verif.Decay.C126_still"
   ],
   "note": "For inter-event matrices and increasing times, one more than matrices; stochastic matrices. Numbers are exact and the tolerance of the trimming is zero for sparse matrices (as in C47)."
  },
  {
   "property": "C127",
   "status": "proved",
   "theorems": [
    "Verif.Average.C127_walk",
    "Verif.Average.C127_average",
    "Verif.Average.C127_stability"
   ],
   "note": "The walk is characterised by its start and by the exponential of the Laplacian while the contacts do not change; C127_walk shows that it exists and is unique. Numbers are exact, dense matrices, no window."
  },
  {
   "property": "C128",
   "status": "partial",
   "theorems": [
    "Verif.Average.C128_cut_partial",
    "Verif.Average.C128_cut_violated"
   ],
   "note": "Violated for every contact that is cut in two (C128_cut_violated). C128_cut_partial: monotone in the cuts and bounded. Transition matrices do not change, see C59."
  },
  {
   "property": "C129",
   "status": "proved",
   "theorems": [
    "Verif.Groups.C129_communities",
    "Verif.Groups.C129_covariance",
    "Verif.Groups.C129_split",
    "Verif.Groups.C129_louvain",
    "Verif.Groups.C129_sparse",
    "Verif.Groups.C129_negligible",
    "Verif.Groups.C129_one_start"
   ],
   "note": "C129_communities is about the whole session of C81. C129_louvain and C129_sparse are for one search of the dense and of the sparse class, all groupings that the matrix respects; the sparse class under the conditions of C69. C129_negligible and C129_one_start show the exception. Numbers are exact."
  },
  {
   "property": "C130",
   "status": "proved",
   "theorems": [
    "Verif.Mirror.C130_covariance",
    "Verif.Mirror.C130_communities"
   ],
   "note": "Session of C81. Numbers are exact, dense matrices, no window."
  },
  {
   "property": "C131",
   "status": "proved",
   "theorems": [
    "Verif.Mirror.C131_listing",
    "Verif.Mirror.C131_units",
    "Verif.Mirror.C131_names"
   ],
   "note": "Session of C81. For names in another order see C122: the search visits the nodes in another order, so that only the values of partitions are compared there. Numbers are exact, dense matrices, no window."
  },
  {
   "property": "C132",
   "status": "partial",
   "theorems": [
    "Verif.Optimum.C132_levels",
    "Verif.Optimum.C132_joins_partial",
    "Verif.Optimum.C132_sparse_partial",
    "Verif.Optimum.C132_analysis_partial",
    "Verif.Optimum.C132_ties_violated"
   ],
   "note": "The code violates the property: if partitions tie, the last sweep can leave two communities whose join raises the stability (C132_ties_violated). Proved for inputs on which no two partitions tie up to the threshold: dense search, sparse search, complete analyses."
  },
  {
   "property": "C133",
   "status": "partial",
   "theorems": [
    "Verif.Optimum.C133_take_out_violated",
    "Verif.Optimum.C133_apart_violated",
    "Verif.Optimum.C133_linked_partial"
   ],
   "note": "The code violates the property: a member can be better off alone, and a community can consist of nodes without a link between them. Proved: members are linked if links are transitive."
  },
  {
   "property": "C134",
   "status": "proved",
   "theorems": [
    "Verif.Scales.C134_alone",
    "Verif.Scales.C134_covariance",
    "Verif.Scales.C134_search"
   ],
   "note": "C134_alone is about the whole session of C81, C134_search about one search of the dense class on any matrices. Numbers are exact, dense matrices, no window."
  },
  {
   "property": "C135",
   "status": "proved",
   "theorems": [
    "Verif.Scales.C135_groups",
    "Verif.Scales.C135_covariance",
    "Verif.Scales.C135_search"
   ],
   "note": "C135_groups is about the whole session of C81, C135_search about one search of the dense class on any matrices. Numbers are exact, dense matrices, no window."
  },
  {
   "property": "C136",
   "status": "partial",
   "theorems": [
    "Verif.CovMain.C136_found_partial",
    "Verif.CovMain.C136_nodes",
    "Verif.CovMain.C136_name_violated",
    "Verif.CovMain.C136_extra_violated",
    "Verif.CovMain.C136_digits_violated"
   ],
   "note": "The code violates the property: parts of the network name that begin with w are read as time scales, and time scales are read from names with four significant digits. Proved for names without such parts: exactly the intervals, and of each time scale the number in its names (the scale itself if four digits are enough)."
  },
  {
   "property": "C137",
   "status": "partial",
   "theorems": [
    "Verif.CovMain.C137_complete",
    "Verif.CovMain.C137_any_order",
    "Verif.CovMain.C137_tasks",
    "Verif.CovMain.C137_finishes",
    "Verif.CovMain.C137_flags_violated",
    "Verif.CovMain.C137_list_violated",
    "Verif.CovMain.C137_list_wrong_violated"
   ],
   "note": "The code violates the property for --only_from_start together with --only_from_finish, and for an --int_list that is not increasing. Proved for all other options, increasing grids and all interleavings. As in C50, runs that were stopped before are continued with one kind of matrices; with both kinds the directory is empty at first."
  },
  {
   "property": "C138",
   "status": "partial",
   "theorems": [
    "Verif.Calls.C138_accepted",
    "Verif.Calls.C138_unknown",
    "Verif.Calls.C138_misspelt_violated",
    "Verif.Calls.C138_calls_violated",
    "Verif.Calls.C138_calls_partial",
    "Verif.Calls.C138_worker_calls",
    "Verif.Calls.C138_nothing_violated",
    "Verif.Calls.C138_without_verbose"
   ],
   "note": "Partial because the code violates the property: run_laplacians_transmats passes an argument that the methods do not have, so it writes no matrix files at all; proved for all options, waiting times and disks. That the interpreter accepts exactly the calls that fit is proved for all signatures and calls; the calls and signatures are read off the source."
  },
  {
   "property": "C139",
   "status": "partial",
   "theorems": [
    "Verif.ClustMain.C139_selected_partial",
    "Verif.ClustMain.C139_distinct",
    "Verif.ClustMain.C139_result_tmp",
    "Verif.ClustMain.C139_results",
    "Verif.ClustMain.C139_points",
    "Verif.ClustMain.C139_name_violated",
    "Verif.ClustMain.C139_other_violated",
    "Verif.ClustMain.C139_matrices_violated",
    "Verif.ClustMain.C139_init_p1_violated",
    "Verif.ClustMain.C139_static_violated",
    "Verif.ClustMain.C139_no_static_violated"
   ],
   "note": "Partial because the code violates the property in the five ways that the statement lists, each proved for all inputs. C139_selected_partial is for network names without the three texts that the script looks for and directories with files of run_cov_integrals."
  },
  {
   "property": "C140",
   "status": "partial",
   "theorems": [
    "Verif.Pipeline.C140_window_partial",
    "Verif.Pipeline.C140_whole_partial",
    "Verif.Pipeline.C140_directions",
    "Verif.Pipeline.C140_tools_violated"
   ],
   "note": "Partial because the code violates the property: the first tool writes no matrices (C138), so nothing is integrated; proved for all options and any number of runs. With the calls repaired, waiting times read back exactly (C136), nothing trimmed and matrices from the exponential, the property is proved in full."
  },
  {
   "property": "C141",
   "status": "proved",
   "theorems": [
    "Verif.Noise.C141_transitions",
    "Verif.Noise.C141_recorded"
   ],
   "note": "For contacts that last, between different labels, where the contacts of a pair do not overlap. With exact arithmetic (C106 for rounding)."
  },
  {
   "property": "C142",
   "status": "proved",
   "theorems": [
    "Verif.Noise.C142_covariance",
    "Verif.Noise.C142_stability"
   ],
   "note": "For contacts that last, between different labels, where the contacts of a pair do not overlap. The bound is in terms of the errors of the times, not of the time during which contacts differ: cutting a contact in two changes the covariance (C128)."
  },
  {
   "property": "C143",
   "status": "proved",
   "theorems": [
    "Verif.Smooth.C143_transitions",
    "Verif.Smooth.C143_covariance",
    "Verif.Smooth.C143_stability",
    "Verif.Smooth.C143_ranking",
    "Verif.Smooth.C143_slow"
   ],
   "note": "For contacts that last, between different labels, where the contacts of a pair do not overlap. With exact arithmetic (C106, C109 for rounding)."
  },
  {
   "property": "C144",
   "status": "partial",
   "theorems": [
    "Verif.Glob.C144_found_partial",
    "Verif.Glob.C144_brackets",
    "Verif.Glob.C144_brackets_violated",
    "Verif.Glob.C144_star_violated",
    "Verif.LapMain.C144_recomputed_violated",
    "Verif.LapMain.C144_skipped_violated"
   ],
   "note": "Partial because the code violates the property: names are used as patterns. Proved for names of directories and networks without *, ? and [. The two theorems of LapMain show what follows for run_laplacians_transmats, for all options and contents. As it is, the script writes no matrices at all (C138); the worker is that of C80, with its calls accepted."
  },
  {
   "property": "C145",
   "status": "proved",
   "theorems": [
    "Verif.LapMain.C145_complete",
    "Verif.LapMain.C145_others",
    "Verif.LapMain.C145_any_order",
    "Verif.LapMain.C145_finishes",
    "Verif.LapMain.C145_batches"
   ],
   "note": "For ordinary names (see C144). The worker is that of C80 with accepted calls (C138 shows that the calls of the script as it is are refused). A process makes a step by asking whether a file is there or by writing a whole file; a file that is written when the machine stops is a whole one or not there."
  },
  {
   "property": "C146",
   "status": "partial",
   "theorems": [
    "Verif.ClustPool.C146_complete_partial",
    "Verif.ClustPool.C146_kept",
    "Verif.ClustPool.C146_others",
    "Verif.ClustPool.C146_any_order",
    "Verif.ClustPool.C146_ends",
    "Verif.ClustPool.C146_stuck_violated",
    "Verif.ClustPool.C146_reached_violated"
   ],
   "note": "Partial because the code violates the property if intermediate clusterings are saved: an integral whose session was stopped between the two files never gets a result (C51). Proved for sessions that do not save them. What a process draws at random is an argument of its own."
  },
  {
   "property": "C147",
   "status": "proved",
   "theorems": [
    "Verif.Causal.C147_reached",
    "Verif.Causal.C147_covariance",
    "Verif.Causal.C147_separate"
   ],
   "note": "Over real numbers, on dense matrices with the exact exponential. Sharpens C129: there only zero entries for labels that no chain of contacts links at all."
  },
  {
   "property": "C148",
   "status": "proved",
   "theorems": [
    "Verif.Local.C148_same_walks",
    "Verif.Local.C148_other_groups",
    "Verif.Local.C148_too_early"
   ],
   "note": "Over real numbers, on dense matrices with the exact exponential."
  },
  {
   "property": "C149",
   "status": "proved",
   "theorems": [
    "Verif.StaticRuns.C149_repetitions",
    "Verif.StaticRuns.C149_direction",
    "Verif.StaticRuns.C149_unit"
   ],
   "note": "Over real numbers with the exact exponential, stored without zeros. Networks with nodes that meet nobody are the subject of C110 and C112."
  },
  {
   "property": "C150",
   "status": "proved",
   "theorems": [
    "Verif.Clique.C150_group",
    "Verif.Clique.C150_pair",
    "Verif.Clique.C150_mixing"
   ],
   "note": "Over real numbers, on dense matrices with the exact exponential."
  },
  {
   "property": "C151",
   "status": "proved",
   "theorems": [
    "Verif.Parties.C151_covariance",
    "Verif.Parties.C151_groups",
    "Verif.Parties.C151_alone"
   ],
   "note": "Over real numbers, on dense matrices with the exact exponential; the search with at least two sweeps per level and as many levels as labels allowed."
  },
  {
   "property": "C152",
   "status": "proved",
   "theorems": [
    "Verif.Symmetry.C152_symmetry",
    "Verif.Symmetry.C152_twins",
    "Verif.Symmetry.C152_stability"
   ],
   "note": "Over real numbers, on dense matrices with the exact exponential."
  },
  {
   "property": "C153",
   "status": "partial",
   "theorems": [
    "Verif.Symmetry.C153_unique_partial",
    "Verif.Symmetry.C153_ring_violated"
   ],
   "note": "The code violates the property: on a ring of four nodes two of the four links are in communities (C153_ring_violated). It holds for every division that no other division equals in stability (C153_unique_partial)."
  },
  {
   "property": "C154",
   "status": "proved",
   "theorems": [
    "Verif.Extras.C154_counts",
    "Verif.Extras.C154_merged",
    "Verif.Extras.C154_loaded"
   ],
   "note": ""
  },
  {
   "property": "C155",
   "status": "partial",
   "theorems": [
    "Verif.Extras.C155_timed_partial",
    "Verif.Extras.C155_message_violated",
    "Verif.Extras.C155_position_violated"
   ],
   "note": "The code violates the property: a message that is not a text raises after the computation, and verbose given by position is ignored. It holds if verbose is given by name and the message is a text."
  },
  {
   "property": "C156",
   "status": "partial",
   "theorems": [
    "Verif.Extras.C156_doc_partial",
    "Verif.Extras.C156_optimised_violated"
   ],
   "note": "The code violates the property: without documentation (python -OO) the decorator raises, and with it the import. It holds for methods with documentation."
  },
  {
   "property": "C157",
   "status": "partial",
   "theorems": [
    "Verif.Extras.C157_sum_partial",
    "Verif.Extras.C157_sets_partial",
    "Verif.Extras.C157_empty_violated",
    "Verif.Extras.C157_numbers"
   ],
   "note": "The code violates the property: an empty first list raises if the second has at least two nodes. It holds in all other cases; negative numbers count from the end."
  },
  {
   "property": "C158",
   "status": "proved",
   "theorems": [
    "Verif.CommandLine.C158_given",
    "Verif.CommandLine.C158_order",
    "Verif.CommandLine.C158_equals",
    "Verif.CommandLine.C158_dash",
    "Verif.CommandLine.C158_abbreviations",
    "Verif.CommandLine.C158_unknown",
    "Verif.CommandLine.C158_scripts"
   ],
   "note": "argparse is modelled as far as the scripts use it; the conversion of texts to numbers and the test for negative numbers are parameters. The word -- alone is not covered."
  },
  {
   "property": "C159",
   "status": "partial",
   "theorems": [
    "Verif.CommandLine.C159_direction_partial",
    "Verif.CommandLine.C159_start_violated",
    "Verif.CommandLine.C159_misspelt_violated",
    "Verif.CommandLine.C159_mats_partial",
    "Verif.CommandLine.C159_both_violated"
   ],
   "note": "The code violates the property: --only_from_start and --only_from_finish override the direction, a misspelt direction is not refused, and two options together exclude all matrices. It holds otherwise."
  }
 ]
}
{
 "claims": [
  {
   "property": "C01",
   "status": "proved",
   "theorems": [
    "NF.C01_frac_periodic",
    "NF.C01_frac_periodic_inverse",
    "NF.C01_frac_nonperiodic"
   ],
   "note": ""
  },
  {
   "property": "C02",
   "status": "proved",
   "theorems": [
    "NF.C02_normalize_periodic",
    "NF.C02_normalize_nonperiodic"
   ],
   "note": ""
  },
  {
   "property": "C03",
   "status": "proved",
   "theorems": [
    "NF.C03_distance_metric",
    "NF.C03_distance_nonperiodic"
   ],
   "note": ""
  },
  {
   "property": "C04",
   "status": "proved",
   "theorems": [
    "NF.C04_distance_is_min_over_images",
    "NF.C04_distance_shift_invariant"
   ],
   "note": ""
  },
  {
   "property": "C05",
   "status": "proved",
   "theorems": [
    "NF.C05_connecting_vector",
    "NF.C05_connecting_vector_shortest"
   ],
   "note": ""
  },
  {
   "property": "C06",
   "status": "proved",
   "theorems": [
    "NF.C06_average_is_mean",
    "NF.C06_average_order_images",
    "NF.C06_average_in_box_of_lower_zero",
    "NF.C06_average_outside_limits",
    "NF.C06_average_nonperiodic",
    "NF.C06_average_empty"
   ],
   "note": "C06_average_outside_limits proves that the result can leave the limits when lower != 0 (line 103 takes the remainder without the lower limit)."
  },
  {
   "property": "C07",
   "status": "proved",
   "theorems": [
    "NF.C07_limits_order"
   ],
   "note": ""
  },
  {
   "property": "C08",
   "status": "proved",
   "theorems": [
    "NF.C08_node_neighbours_complete",
    "NF.C08_refined_neighbours_complete",
    "NF.C08_small_box_misses_node"
   ],
   "note": "C08_small_box_misses_node: the excluded small non-periodic box really misses neighbours."
  },
  {
   "property": "C09",
   "status": "proved",
   "theorems": [
    "NF.C09_add_never_out_of_range",
    "NF.C09_lookup_never_out_of_range",
    "NF.C09_num_cells_positive"
   ],
   "note": "Both numpy index rules (IndexError, negative wrap-around) are in the model."
  },
  {
   "property": "C10",
   "status": "proved",
   "theorems": [
    "NF.C10_multiplicity_periodic",
    "NF.C10_each_value_once",
    "NF.C10_count_exact",
    "NF.C10_small_periodic_box_overcounts"
   ],
   "note": "C10_small_periodic_box_overcounts and C10_multiplicity_periodic describe the excluded case exactly."
  },
  {
   "property": "C11",
   "status": "proved",
   "theorems": [
    "NF.C11_cache_transparent"
   ],
   "note": ""
  },
  {
   "property": "C12",
   "status": "proved",
   "theorems": [
    "NF.C12_nodes_and_rejected",
    "NF.C12_add_result_return",
    "NF.C12_minimization_results_complete",
    "NF.C12_monotone"
   ],
   "note": ""
  },
  {
   "property": "C13",
   "status": "proved",
   "theorems": [
    "NF.C13_stored_positions_normalized"
   ],
   "note": ""
  },
  {
   "property": "C14",
   "status": "proved",
   "theorems": [
    "NF.C14_fake_potential",
    "NF.C14_zero_at_lone_node"
   ],
   "note": ""
  },
  {
   "property": "C15",
   "status": "proved",
   "theorems": [
    "NF.C15_recreate_same",
    "NF.C15_recreate_new_threshold",
    "NF.C15_recreate_after_reload"
   ],
   "note": ""
  },
  {
   "property": "C16",
   "status": "proved",
   "theorems": [
    "NF.C16_handed_out_at_most_once",
    "NF.C16_duplicate_in_one_batch"
   ],
   "note": "C16_duplicate_in_one_batch proves the excluded case."
  },
  {
   "property": "C17",
   "status": "proved",
   "theorems": [
    "NF.C17_fifo",
    "NF.C17_nothing_lost"
   ],
   "note": ""
  },
  {
   "property": "C18",
   "status": "proved",
   "theorems": [
    "NF.C18_simplex_identity",
    "NF.C18_entry_same_vertices",
    "NF.C18_reordered_simplex_not_requeued"
   ],
   "note": ""
  },
  {
   "property": "C19",
   "status": "proved",
   "theorems": [
    "NF.C19_objects_are_outstanding",
    "NF.C19_reload_simplices"
   ],
   "note": ""
  },
  {
   "property": "C20",
   "status": "proved",
   "theorems": [
    "NF.C20_finished_iff",
    "NF.C20_set_finished_error_iff",
    "NF.C20_num_running"
   ],
   "note": ""
  },
  {
   "property": "C21",
   "status": "proved",
   "theorems": [
    "NF.C21_parallel_bound",
    "NF.C21_duplicates_exceed"
   ],
   "note": "Hypothesis DistinctInput (no simplex twice in mesh or stencil) is proved for what the library generates: C47_distinct_input."
  },
  {
   "property": "C22",
   "status": "proved",
   "theorems": [
    "NF.C22_bookkeeping",
    "NF.C22_round_errors"
   ],
   "note": "Hypothesis DistinctInput (no simplex twice in mesh or stencil) is proved for what the library generates: C47_distinct_input."
  },
  {
   "property": "C23",
   "status": "proved",
   "theorems": [
    "NF.C23_accounting"
   ],
   "note": "Hypothesis DistinctInput (no simplex twice in mesh or stencil) is proved for what the library generates: C47_distinct_input."
  },
  {
   "property": "C24",
   "status": "proved",
   "theorems": [
    "NF.C24_return_means_finished"
   ],
   "note": "Hypothesis DistinctInput (no simplex twice in mesh or stencil) is proved for what the library generates: C47_distinct_input."
  },
  {
   "property": "C25",
   "status": "proved",
   "theorems": [
    "NF.C25_raise_is_failure",
    "NF.C25_failure_prevents_return",
    "NF.C25_failure_raises"
   ],
   "note": "Hypothesis DistinctInput (no simplex twice in mesh or stencil) is proved for what the library generates: C47_distinct_input."
  },
  {
   "property": "C26",
   "status": "proved",
   "theorems": [
    "NF.C26_centres_spread",
    "NF.C26_centres_keep_distance"
   ],
   "note": "Hypothesis DistinctInput (no simplex twice in mesh or stencil) is proved for what the library generates: C47_distinct_input. Hypothesis GoodGeometry: proper box, feature_size > 0, and periodic or at least dist_cutoff long."
  },
  {
   "property": "C27",
   "status": "proved",
   "theorems": [
    "NF.C27_raised_threshold",
    "NF.C27_negative_cutoff",
    "NF.C27_nodes_covered",
    "NF.C27_nodes_covered_or_queued"
   ],
   "note": "Hypothesis DistinctInput (no simplex twice in mesh or stencil) is proved for what the library generates: C47_distinct_input. Hypothesis GoodGeometry: proper box, feature_size > 0, and periodic or at least dist_cutoff long."
  },
  {
   "property": "C28",
   "status": "proved",
   "theorems": [
    "NF.C28_refinements_bounded",
    "NF.C28_work_bounded",
    "NF.C28_work_bounded_restarts",
    "NF.C28_refinements_bounded_without_recheck",
    "NF.C28_work_bounded_without_recheck",
    "NF.C28_progress",
    "NF.C28_terminates"
   ],
   "note": "Hypothesis DistinctInput (no simplex twice in mesh or stencil) is proved for what the library generates: C47_distinct_input. Hypothesis GoodGeometry: proper box, feature_size > 0, and periodic or at least dist_cutoff long. Fairness is a structure in Spec/Controller.lean."
  },
  {
   "property": "C29",
   "status": "proved",
   "theorems": [
    "NF.C29_no_stall",
    "NF.C29_zero_parallel_livelock"
   ],
   "note": "C29_zero_parallel_livelock proves the excluded case."
  },
  {
   "property": "C30",
   "status": "proved",
   "theorems": [
    "NF.C30_file_is_earlier_state",
    "NF.C30_restart_restores",
    "NF.C30_crash_loses_nothing_saved",
    "NF.C30_saved_means_up_to_date",
    "NF.C30_no_file"
   ],
   "note": "Hypothesis DistinctInput (no simplex twice in mesh or stencil) is proved for what the library generates: C47_distinct_input. save is one step of the controller model; C36_save_refines_controller justifies that."
  },
  {
   "property": "C31",
   "status": "proved",
   "theorems": [
    "NF.C31_restart_finished",
    "NF.C31_restart_returns"
   ],
   "note": ""
  },
  {
   "property": "C32",
   "status": "proved",
   "theorems": [
    "NF.C32_no_stencil",
    "NF.C32_no_stencil_with_positions_fails"
   ],
   "note": "C32_no_stencil_with_positions_fails proves the excluded case."
  },
  {
   "property": "C33",
   "status": "proved",
   "theorems": [
    "NF.C33_skip_iff",
    "NF.C33_negative_cutoff",
    "NF.C33_docstring_differs"
   ],
   "note": "Hypothesis GoodGeometry: proper box, feature_size > 0, and periodic or at least dist_cutoff long."
  },
  {
   "property": "C34",
   "status": "proved",
   "theorems": [
    "NF.C34_discard_iff",
    "NF.C34_small_box_discards"
   ],
   "note": "Hypothesis GoodGeometry: proper box, feature_size > 0, and periodic or at least dist_cutoff long."
  },
  {
   "property": "C35",
   "status": "proved",
   "theorems": [
    "NF.C35_load_and_initial_state",
    "NF.C35_load_fails",
    "NF.C35_other_errors",
    "NF.C35_fresh",
    "NF.C35_previous",
    "NF.C35_check_dimensions"
   ],
   "note": ""
  },
  {
   "property": "C36",
   "status": "proved",
   "theorems": [
    "NF.C36_save_atomic",
    "NF.C36_save_returns",
    "NF.C36_save_raises",
    "NF.C36_cleanup_raises",
    "NF.C36_no_save_file",
    "NF.C36_save_refines_controller"
   ],
   "note": "POSIX rename is assumed atomic and the temporary name fresh (O_EXCL)."
  },
  {
   "property": "C37",
   "status": "proved",
   "theorems": [
    "NF.C37_calls_recorded",
    "NF.C37_value_at_position",
    "NF.C37_value_pure",
    "NF.C37_position_evaluated"
   ],
   "note": ""
  },
  {
   "property": "C38",
   "status": "proved",
   "theorems": [
    "NF.C38_history_monotone",
    "NF.C38_improves_initial",
    "NF.C38_best_of_all_calls",
    "NF.C38_nan_loses_best"
   ],
   "note": ""
  },
  {
   "property": "C39",
   "status": "proved",
   "theorems": [
    "NF.C39_status",
    "NF.C39_success_converged"
   ],
   "note": "A maxfev/maxiter of None means dim*200, as in the code."
  },
  {
   "property": "C40",
   "status": "proved",
   "theorems": [
    "NF.C40_limits",
    "NF.C40_terminates"
   ],
   "note": ""
  },
  {
   "property": "C41",
   "status": "proved",
   "theorems": [
    "NF.C41_history",
    "NF.C41_no_history"
   ],
   "note": ""
  },
  {
   "property": "C42",
   "status": "proved",
   "theorems": [
    "NF.C42_affine_hull"
   ],
   "note": ""
  },
  {
   "property": "C43",
   "status": "proved",
   "theorems": [
    "NF.C43_nodes_finite",
    "NF.C43_success_finite",
    "NF.C43_nan_success_with_cutoff",
    "NF.C43_two_step_finite"
   ],
   "note": "C43_nan_success_with_cutoff is a defect of the code."
  },
  {
   "property": "C44",
   "status": "proved",
   "theorems": [
    "NF.C44_two_step",
    "NF.C44_true_function",
    "NF.C44_no_fake"
   ],
   "note": ""
  },
  {
   "property": "C45",
   "status": "proved",
   "theorems": [
    "NF.C45_nodes_sound",
    "NF.C45_nodes_below_threshold"
   ],
   "note": "Real arithmetic instead of floats."
  },
  {
   "property": "C46",
   "status": "proved",
   "theorems": [
    "NF.C46_mesh_size_and_position",
    "NF.C46_nonperiodic_sticks_out"
   ],
   "note": ""
  },
  {
   "property": "C47",
   "status": "proved",
   "theorems": [
    "NF.C47_mesh_distinct_independent",
    "NF.C47_stencil_distinct",
    "NF.C47_distinct_input"
   ],
   "note": ""
  },
  {
   "property": "C48",
   "status": "proved",
   "theorems": [
    "NF.C48_mesh_covers"
   ],
   "note": ""
  },
  {
   "property": "C49",
   "status": "proved",
   "theorems": [
    "NF.C49_auto_outside_cutoff",
    "NF.C49_circle_sphere_outside"
   ],
   "note": "The periodic hypothesis excludes boxes in which an image of the centre is near."
  },
  {
   "property": "C50",
   "status": "proved",
   "theorems": [
    "NF.C50_mesh_stencil",
    "NF.C50_circle_sphere",
    "NF.C50_auto"
   ],
   "note": ""
  },
  {
   "property": "C51",
   "status": "proved",
   "theorems": [
    "NF.C51_clusters_partition"
   ],
   "note": ""
  },
  {
   "property": "C52",
   "status": "proved",
   "theorems": [
    "NF.C52_clusters_are_chains",
    "NF.C52_clusters_separated",
    "NF.C52_docstring_differs"
   ],
   "note": ""
  },
  {
   "property": "C53",
   "status": "proved",
   "theorems": [
    "NF.C53_order_independent",
    "NF.C53_monotone"
   ],
   "note": ""
  },
  {
   "property": "C54",
   "status": "proved",
   "theorems": [
    "NF.C54_cluster_graph"
   ],
   "note": ""
  },
  {
   "property": "C55",
   "status": "proved",
   "theorems": [
    "NF.C55_majority",
    "NF.C55_total",
    "NF.C55_none_raises",
    "NF.C55_zero_raises"
   ],
   "note": "C55_none_raises, C55_zero_raises prove the excluded cases."
  },
  {
   "property": "C56",
   "status": "proved",
   "theorems": [
    "NF.C56_tuples_once",
    "NF.C56_can_finish",
    "NF.C56_decision"
   ],
   "note": "np.linalg.svd is modelled by its specification: the product of the singular values is sqrt(det Gram)."
  },
  {
   "property": "C57",
   "status": "proved",
   "theorems": [
    "NF.C57_isolated_dimension",
    "NF.C57_isolated_point"
   ],
   "note": ""
  },
  {
   "property": "C58",
   "status": "proved",
   "theorems": [
    "NF.C58_ballistic_dominating"
   ],
   "note": ""
  },
  {
   "property": "C59",
   "status": "proved",
   "theorems": [
    "NF.C59_ballistic_terminates",
    "NF.C59_coinciding_positions_raise"
   ],
   "note": "C59_coinciding_positions_raise proves the excluded case."
  },
  {
   "property": "C60",
   "status": "proved",
   "theorems": [
    "NF.C60_no_turning_back",
    "NF.C60_avoids_close_positions"
   ],
   "note": ""
  },
  {
   "property": "C61",
   "status": "proved",
   "theorems": [
    "NF.C61_shortest_path",
    "NF.C61_cluster",
    "NF.C61_empty_raises",
    "NF.C61_first_path"
   ],
   "note": ""
  },
  {
   "property": "C62",
   "status": "proved",
   "theorems": [
    "NF.C62_general",
    "NF.C62_dominating_set",
    "NF.C62_terminates",
    "NF.C62_raises"
   ],
   "note": "The property originally expected (never raises) is false of the code: C62_raises."
  },
  {
   "property": "C63",
   "status": "proved",
   "theorems": [
    "NF.C63_closed_loop",
    "NF.C63_open_line",
    "NF.C63_connected",
    "NF.C63_two_loops_closed"
   ],
   "note": "C63_two_loops_closed: the reading \"one loop\" is false for disconnected graphs."
  },
  {
   "property": "C64",
   "status": "proved",
   "theorems": [
    "NF.C64_line_roundtrip",
    "NF.C64_degree_count"
   ],
   "note": ""
  },
  {
   "property": "C65",
   "status": "proved",
   "theorems": [
    "NF.C65_results",
    "NF.C65_never_raises",
    "NF.C65_dominating_set_raises",
    "NF.C65_unknown_method",
    "NF.C65_default_feature_size",
    "NF.C65_given_feature_size",
    "NF.C65_state_needs_feature_size",
    "NF.C65_identified_positions"
   ],
   "note": "C65_dominating_set_raises, C65_unknown_method, C65_state_needs_feature_size describe the remaining inputs."
  },
  {
   "property": "C66",
   "status": "proved",
   "theorems": [
    "NF.C66_paths",
    "NF.C66_all_edges",
    "NF.C66_one_path",
    "NF.C66_plot"
   ],
   "note": ""
  },
  {
   "property": "C67",
   "status": "proved",
   "theorems": [
    "NF.C67_same_outcome",
    "NF.C67_loops",
    "NF.C67_base_exception_blocks",
    "NF.C67_blocks_only",
    "NF.C67_of_search"
   ],
   "note": "C67_base_exception_blocks is a defect of the code."
  },
  {
   "property": "C68",
   "status": "proved",
   "theorems": [
    "NF.C68_flat",
    "NF.C68_flat_cluster"
   ],
   "note": ""
  },
  {
   "property": "C69",
   "status": "proved",
   "theorems": [
    "NF.C69_point_or_more"
   ],
   "note": ""
  },
  {
   "property": "C70",
   "status": "proved",
   "theorems": [
    "NF.C70_same_history",
    "NF.C70_same_results",
    "NF.C70_same_outcome",
    "NF.C70_fake_potential",
    "NF.C70_parallel_not_reproducible"
   ],
   "note": "C70_parallel_not_reproducible shows that the restriction to one minimization at a time is needed."
  },
  {
   "property": "C71",
   "status": "proved",
   "theorems": [
    "NF.C71_setup_errors",
    "NF.C71_settings",
    "NF.C71_options",
    "NF.C71_precision",
    "NF.C71_start_simplices",
    "NF.C71_default_search"
   ],
   "note": ""
  },
  {
   "property": "C72",
   "status": "proved",
   "theorems": [
    "NF.C72_nothing_lost",
    "NF.C72_exploration_complete"
   ],
   "note": ""
  },
  {
   "property": "C73",
   "status": "proved",
   "theorems": [
    "NF.C73_volume_steps",
    "NF.C73_volume_bounds",
    "NF.C73_stays_nondegenerate",
    "NF.C73_two_step_nondegenerate",
    "NF.C73_search",
    "NF.C73_default_search"
   ],
   "note": ""
  },
  {
   "property": "C74",
   "status": "proved",
   "theorems": [
    "NF.C74_normalized",
    "NF.C74_store_in_range",
    "NF.C74_lookup_in_range",
    "NF.C74_exact_arithmetic",
    "NF.C74_rounding_exists",
    "NF.C74_near_found",
    "NF.C74_normalized_in_reach",
    "NF.C74_upper_limit_reached",
    "NF.C74_unnormalized_fails",
    "NF.C74_near_missed"
   ],
   "note": "C74_upper_limit_reached, C74_unnormalized_fails and C74_near_missed are concrete positions for which the exact properties C02, C09 and C08 fail in double precision. Overflow and underflow are not modelled (unbounded exponents)."
  },
  {
   "property": "C75",
   "status": "proved",
   "theorems": [
    "NF.C75_textbook",
    "NF.C75_rules_exclusive"
   ],
   "note": ""
  },
  {
   "property": "C76",
   "status": "proved",
   "theorems": [
    "NF.C76_result",
    "NF.C76_result_attributes",
    "NF.C76_container",
    "NF.C76_vertexCount",
    "NF.C76_state",
    "NF.C76_restart",
    "NF.C76_ragged"
   ],
   "note": "trusted: the contract of fsc.hdf5_io and h5py written at the head of Model/Hdf5"
  },
  {
   "property": "C77",
   "status": "proved",
   "theorems": [
    "NF.C77_roundtrip",
    "NF.C77_other_h5py"
   ],
   "note": ""
  },
  {
   "property": "C78",
   "status": "proved",
   "theorems": [
    "NF.C78_points",
    "NF.C78_search",
    "NF.C78_cones"
   ],
   "note": ""
  },
  {
   "property": "C79",
   "status": "proved",
   "theorems": [
    "NF.C79_minimizer",
    "NF.C79_two_step",
    "NF.C79_fake_potential",
    "NF.C79_periodic",
    "NF.C79_setup",
    "NF.C79_search",
    "NF.C79_nodes"
   ],
   "note": ""
  },
  {
   "property": "C80",
   "status": "proved",
   "theorems": [
    "NF.C80_points",
    "NF.C80_other_dimensions",
    "NF.C80_nodes_visible",
    "NF.C80_simplices",
    "NF.C80_stencil"
   ],
   "note": ""
  },
  {
   "property": "C81",
   "status": "proved",
   "theorems": [
    "NF.C81_result",
    "NF.C81_identified",
    "NF.C81_visible",
    "NF.C81_wrapping_line",
    "NF.C81_point_outside"
   ],
   "note": "`C81_point_outside` is the witness for the excluded case; `C81_wrapping_line` states what cutting long edges means for a line with no short edge."
  },
  {
   "property": "C82",
   "status": "proved",
   "theorems": [
    "NF.C82_positions",
    "NF.C82_units"
   ],
   "note": ""
  },
  {
   "property": "C83",
   "status": "proved",
   "theorems": [
    "NF.C83_periodic_moves"
   ],
   "note": ""
  },
  {
   "property": "C84",
   "status": "proved",
   "theorems": [
    "NF.C84_rigid_motions"
   ],
   "note": ""
  },
  {
   "property": "C85",
   "status": "proved",
   "theorems": [
    "NF.C85_success_is_minimum",
    "NF.C85_finds_minimum"
   ],
   "note": ""
  },
  {
   "property": "C86",
   "status": "proved",
   "theorems": [
    "NF.C86_fake_potential",
    "NF.C86_exploration_complete",
    "NF.C86_finds_node",
    "NF.C86_search"
   ],
   "note": ""
  },
  {
   "property": "C87",
   "status": "proved",
   "theorems": [
    "NF.C87_can_complete",
    "NF.C87_search",
    "NF.C87_search_nonperiodic"
   ],
   "note": ""
  },
  {
   "property": "C88",
   "status": "proved",
   "theorems": [
    "NF.C88_exact"
   ],
   "note": ""
  },
  {
   "property": "C89",
   "status": "proved",
   "theorems": [
    "NF.C89_stalls",
    "NF.C89_success",
    "NF.C89_default",
    "NF.C89_two_step",
    "NF.C89_minimum",
    "NF.C89_convex"
   ],
   "note": "negative result (K. I. M. McKinnon 1998, adapted to the coefficients and comparisons of this code)"
  },
  {
   "property": "C90",
   "status": "proved",
   "theorems": [
    "NF.C90_open_line",
    "NF.C90_points_and_open_lines",
    "NF.C90_nonperiodic",
    "NF.C90_periodic",
    "NF.C90_tube",
    "NF.C90_thin_tube"
   ],
   "note": ""
  },
  {
   "property": "C91",
   "status": "proved",
   "theorems": [
    "NF.C91_through_box",
    "NF.C91_ring"
   ],
   "note": "The bounds (0.07, 1/240, 10, 1/3, 1/4) are sufficient, not sharp."
  },
  {
   "property": "C92",
   "status": "proved",
   "theorems": [
    "NF.C92_refines_around_nodes"
   ],
   "note": ""
  },
  {
   "property": "C93",
   "status": "proved",
   "theorems": [
    "NF.C93_refinements_bounded",
    "NF.C93_work_bounded",
    "NF.C93_refinements_bounded_without_recheck",
    "NF.C93_terminates",
    "NF.C93_runaway"
   ],
   "note": ""
  },
  {
   "property": "C94",
   "status": "proved",
   "theorems": [
    "NF.C94_line",
    "NF.C94_open_line",
    "NF.C94_points_and_lines",
    "NF.C94_short_line",
    "NF.C94_methods_differ"
   ],
   "note": ""
  },
  {
   "property": "C95",
   "status": "proved",
   "theorems": [
    "NF.C95_no_small_loop",
    "NF.C95_methods_differ"
   ],
   "note": ""
  },
  {
   "property": "C96",
   "status": "proved",
   "theorems": [
    "NF.C96_through_box",
    "NF.C96_ring"
   ],
   "note": ""
  },
  {
   "property": "C97",
   "status": "proved",
   "theorems": [
    "NF.C97_distance_periodic",
    "NF.C97_distance_open",
    "NF.C97_exact_arithmetic",
    "NF.C97_same_clusters",
    "NF.C97_connecting_vector",
    "NF.C97_assertion_fails"
   ],
   "note": ""
  },
  {
   "property": "C98",
   "status": "proved",
   "theorems": [
    "NF.C98_small_clusters",
    "NF.C98_exhaustive_possible",
    "NF.C98_equal_draws",
    "NF.C98_point_or_line",
    "NF.C98_seven",
    "NF.C98_line_or_plane"
   ],
   "note": ""
  },
  {
   "property": "C99",
   "status": "proved",
   "theorems": [
    "NF.C99_reorder",
    "NF.C99_mirror",
    "NF.C99_half_apart"
   ],
   "note": ""
  },
  {
   "property": "C100",
   "status": "proved",
   "theorems": [
    "NF.C100_components",
    "NF.C100_search",
    "NF.C100_sparse_splits",
    "NF.C100_close_merge"
   ],
   "note": ""
  },
  {
   "property": "C101",
   "status": "proved",
   "theorems": [
    "NF.C101_split",
    "NF.C101_join",
    "NF.C101_alone",
    "NF.C101_merge",
    "NF.C101_search",
    "NF.C101_near_merge"
   ],
   "note": ""
  },
  {
   "property": "C102",
   "status": "proved",
   "theorems": [
    "NF.C102_calls_recorded",
    "NF.C102_value_at_position",
    "NF.C102_value_pure",
    "NF.C102_position_evaluated",
    "NF.C102_history_monotone",
    "NF.C102_improves_initial",
    "NF.C102_best_of_all_calls",
    "NF.C102_status",
    "NF.C102_success_converged",
    "NF.C102_limits",
    "NF.C102_terminates",
    "NF.C102_history",
    "NF.C102_no_history",
    "NF.C102_two_step",
    "NF.C102_true_function",
    "NF.C102_no_fake",
    "NF.C102_floats",
    "NF.C102_trial_points",
    "NF.C102_cutoff",
    "NF.C102_two_step_finite",
    "NF.C102_nodes_below_threshold",
    "NF.C102_exact_arithmetic",
    "NF.C102_collapse"
   ],
   "note": ""
  },
  {
   "property": "C103",
   "status": "proved",
   "theorems": [
    "NF.C103_exceptions",
    "NF.C103_task_errors",
    "NF.C103_restart",
    "NF.C103_results",
    "NF.C103_each_once",
    "NF.C103_returned",
    "NF.C103_results_genuine",
    "NF.C103_nodes_below_threshold",
    "NF.C103_refinements_apart",
    "NF.C103_nodes_covered",
    "NF.C103_refinements_bounded",
    "NF.C103_work_bounded",
    "NF.C103_progress",
    "NF.C103_terminates",
    "NF.C103_exact_arithmetic",
    "NF.C103_stencil_resolved",
    "NF.C103_unresolved_stencil"
   ],
   "note": ""
  },
  {
   "property": "C104",
   "status": "proved",
   "theorems": [
    "NF.C104_mesh_near",
    "NF.C104_mesh_shape",
    "NF.C104_mesh_corners",
    "NF.C104_mesh_distinct_independent",
    "NF.C104_mesh_covers",
    "NF.C104_auto_mesh_stencil",
    "NF.C104_stencil_distinct",
    "NF.C104_setup_errors",
    "NF.C104_exact_arithmetic",
    "NF.C104_settings",
    "NF.C104_setup",
    "NF.C104_default",
    "NF.C104_default_search",
    "NF.C104_unresolved_mesh"
   ],
   "note": ""
  },
  {
   "property": "C105",
   "status": "proved",
   "theorems": [
    "NF.C105_success_is_minimum",
    "NF.C105_finds_minimum",
    "NF.C105_exact_valley"
   ],
   "note": ""
  },
  {
   "property": "C106",
   "status": "proved",
   "theorems": [
    "NF.C106_finds_node",
    "NF.C106_search"
   ],
   "note": ""
  },
  {
   "property": "C107",
   "status": "proved",
   "theorems": [
    "NF.C107_fake_potential",
    "NF.C107_live"
   ],
   "note": ""
  },
  {
   "property": "C108",
   "status": "proved",
   "theorems": [
    "NF.C108_can_complete",
    "NF.C108_search",
    "NF.C108_default"
   ],
   "note": ""
  },
  {
   "property": "C109",
   "status": "proved",
   "theorems": [
    "NF.C109_average_open",
    "NF.C109_average_periodic",
    "NF.C109_nodal_point",
    "NF.C109_average_total",
    "NF.C109_exact_arithmetic",
    "NF.C109_get_pos",
    "NF.C109_average_reaches_limit"
   ],
   "note": ""
  },
  {
   "property": "C110",
   "status": "proved",
   "theorems": [
    "NF.C110_minimization",
    "NF.C110_minimization_float",
    "NF.C110_results",
    "NF.C110_evaluations",
    "NF.C110_at_least",
    "NF.C110_periodic",
    "NF.C110_open",
    "NF.C110_evaluations_float",
    "NF.C110_float",
    "NF.C110_default"
   ],
   "note": ""
  },
  {
   "property": "C111",
   "status": "proved",
   "theorems": [
    "NF.C111_same_objects",
    "NF.C111_same_number",
    "NF.C111_nodal_points",
    "NF.C111_searches",
    "NF.C111_edge_unstable"
   ],
   "note": ""
  },
  {
   "property": "C112",
   "status": "proved",
   "theorems": [
    "NF.C112_majority",
    "NF.C112_total",
    "NF.C112_points",
    "NF.C112_search",
    "NF.C112_near_box",
    "NF.C112_exact_arithmetic"
   ],
   "note": "LAPACK is not modelled: the theorem assumes that the singular value of a single row is its length up to a relative error of 2^-40."
  },
  {
   "property": "C113",
   "status": "proved",
   "theorems": [
    "NF.C113_exact"
   ],
   "note": ""
  },
  {
   "property": "C114",
   "status": "proved",
   "theorems": [
    "NF.C114_dominating",
    "NF.C114_terminates",
    "NF.C114_resolved_open",
    "NF.C114_no_turning_back",
    "NF.C114_vector",
    "NF.C114_avoids_close_positions",
    "NF.C114_exact_arithmetic",
    "NF.C114_unresolved_raises"
   ],
   "note": ""
  },
  {
   "property": "C115",
   "status": "proved",
   "theorems": [
    "NF.C115_shortest_path",
    "NF.C115_cluster",
    "NF.C115_lengths",
    "NF.C115_first_path",
    "NF.C115_exact_arithmetic"
   ],
   "note": ""
  },
  {
   "property": "C116",
   "status": "proved",
   "theorems": [
    "NF.C116_dominating_set",
    "NF.C116_dominating_terminates",
    "NF.C116_results",
    "NF.C116_never_raises",
    "NF.C116_never_raises_open",
    "NF.C116_dominating_run",
    "NF.C116_refines",
    "NF.C116_points"
   ],
   "note": ""
  },
  {
   "property": "C117",
   "status": "proved",
   "theorems": [
    "NF.C117_results",
    "NF.C117_genuine",
    "NF.C117_complete",
    "NF.C117_never_raises"
   ],
   "note": ""
  },
  {
   "property": "C118",
   "status": "proved",
   "theorems": [
    "NF.C118_general",
    "NF.C118_dominating_set",
    "NF.C118_raises",
    "NF.C118_identify",
    "NF.C118_search"
   ],
   "note": ""
  },
  {
   "property": "C119",
   "status": "proved",
   "theorems": [
    "NF.C119_ieee",
    "NF.C119_ieee_exists",
    "NF.C119_minimizer",
    "NF.C119_two_step",
    "NF.C119_normalize",
    "NF.C119_distance",
    "NF.C119_clusters",
    "NF.C119_connecting_vector",
    "NF.C119_point",
    "NF.C119_search",
    "NF.C119_nodes",
    "NF.C119_setup",
    "NF.C119_dimension",
    "NF.C119_identify",
    "NF.C119_line",
    "NF.C119_run"
   ],
   "note": ""
  }
 ]
}
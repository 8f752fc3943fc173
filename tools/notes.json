{
 "C06": "C06_average_outside_limits proves that the result can leave the limits when lower != 0 (line 103 takes the remainder without the lower limit).",
 "C08": "C08_small_box_misses_node: the excluded small non-periodic box really misses neighbours.",
 "C09": "Both numpy index rules (IndexError, negative wrap-around) are in the model.",
 "C10": "C10_small_periodic_box_overcounts and C10_multiplicity_periodic describe the excluded case exactly.",
 "C16": "C16_duplicate_in_one_batch proves the excluded case.",
 "C21": "Hypothesis DistinctInput (no simplex twice in mesh or stencil) is proved for what the library generates: C47_distinct_input.",
 "C22": "Hypothesis DistinctInput (no simplex twice in mesh or stencil) is proved for what the library generates: C47_distinct_input.",
 "C23": "Hypothesis DistinctInput (no simplex twice in mesh or stencil) is proved for what the library generates: C47_distinct_input.",
 "C24": "Hypothesis DistinctInput (no simplex twice in mesh or stencil) is proved for what the library generates: C47_distinct_input.",
 "C25": "Hypothesis DistinctInput (no simplex twice in mesh or stencil) is proved for what the library generates: C47_distinct_input.",
 "C26": "Hypothesis DistinctInput (no simplex twice in mesh or stencil) is proved for what the library generates: C47_distinct_input. Hypothesis GoodGeometry: proper box, feature_size > 0, and periodic or at least dist_cutoff long.",
 "C27": "Hypothesis DistinctInput (no simplex twice in mesh or stencil) is proved for what the library generates: C47_distinct_input. Hypothesis GoodGeometry: proper box, feature_size > 0, and periodic or at least dist_cutoff long.",
 "C28": "Hypothesis DistinctInput (no simplex twice in mesh or stencil) is proved for what the library generates: C47_distinct_input. Hypothesis GoodGeometry: proper box, feature_size > 0, and periodic or at least dist_cutoff long. Fairness is a structure in Spec/Controller.lean.",
 "C29": "C29_zero_parallel_livelock proves the excluded case.",
 "C30": "Hypothesis DistinctInput (no simplex twice in mesh or stencil) is proved for what the library generates: C47_distinct_input. save is one step of the controller model; C36_save_refines_controller justifies that.",
 "C32": "C32_no_stencil_with_positions_fails proves the excluded case.",
 "C33": "Hypothesis GoodGeometry: proper box, feature_size > 0, and periodic or at least dist_cutoff long.",
 "C34": "Hypothesis GoodGeometry: proper box, feature_size > 0, and periodic or at least dist_cutoff long.",
 "C36": "POSIX rename is assumed atomic and the temporary name fresh (O_EXCL).",
 "C39": "A maxfev/maxiter of None means dim*200, as in the code.",
 "C43": "C43_nan_success_with_cutoff is a defect of the code.",
 "C45": "Real arithmetic instead of floats.",
 "C49": "The periodic hypothesis excludes boxes in which an image of the centre is near.",
 "C55": "C55_none_raises, C55_zero_raises prove the excluded cases.",
 "C56": "np.linalg.svd is modelled by its specification: the product of the singular values is sqrt(det Gram).",
 "C59": "C59_coinciding_positions_raise proves the excluded case.",
 "C62": "The property originally expected (never raises) is false of the code: C62_raises.",
 "C63": "C63_two_loops_closed: the reading \"one loop\" is false for disconnected graphs.",
 "C65": "C65_dominating_set_raises, C65_unknown_method, C65_state_needs_feature_size describe the remaining inputs.",
 "C67": "C67_base_exception_blocks is a defect of the code.",
 "C70": "C70_parallel_not_reproducible shows that the restriction to one minimization at a time is needed.",
 "C74": "C74_upper_limit_reached, C74_unnormalized_fails and C74_near_missed are concrete positions for which the exact properties C02, C09 and C08 fail in double precision. Overflow and underflow are not modelled (unbounded exponents).",
 "C76": "trusted: the contract of fsc.hdf5_io and h5py written at the head of Model/Hdf5",
 "C81": "`C81_point_outside` is the witness for the excluded case; `C81_wrapping_line` states what cutting long edges means for a line with no short edge.",
 "C89": "negative result (K. I. M. McKinnon 1998, adapted to the coefficients and comparisons of this code)",
 "C91": "The bounds (0.07, 1/240, 10, 1/3, 1/4) are sufficient, not sharp.",
 "C112": "LAPACK is not modelled: the theorem assumes that the singular value of a single row is its length up to a relative error of 2^-40."
}
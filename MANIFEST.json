{
 "claims": [
  {
   "property": "C01",
   "status": "proved",
   "theorems": [
    "CTInt.C01_extension"
   ],
   "note": ""
  },
  {
   "property": "C02",
   "status": "proved",
   "theorems": [
    "CTInt.C02_fast_formula",
    "CTInt.C02_evalGij"
   ],
   "note": ""
  },
  {
   "property": "C03",
   "status": "partial",
   "theorems": [
    "CTInt.C03_trial_ratio_partial",
    "CTInt.C03_flavor_add",
    "CTInt.C03_flavor_remove",
    "CTInt.C03_flavor_add_remove_partial",
    "CTInt.C03_perform_add_remove_violation",
    "CTInt.C03_half_way_zero",
    "CTInt.C03_half_way_violation"
   ],
   "note": "All histories of the object and all non-throwing trials, except trials that both leave and restore batch-start fields on a flavor whose det A half way is zero. Those are not exact: they report 0 (C03_half_way_zero), also when the ratio is not 0 (C03_half_way_violation). Accepting mixed trials while another field stays away from its batch-start value is undefined (C03_perform_add_remove_violation)."
  },
  {
   "property": "C04",
   "status": "proved",
   "theorems": [
    "CTInt.C04_update_matrix",
    "CTInt.C04_batch_start"
   ],
   "note": ""
  },
  {
   "property": "C05",
   "status": "partial",
   "theorems": [
    "CTInt.C05_M_and_weight",
    "CTInt.C05_trial_weight_ratio_partial",
    "CTInt.C05_compute_weight",
    "CTInt.C05_compute_M",
    "CTInt.C05_recompute",
    "CTInt.C05_recompute_refuses",
    "CTInt.C05_compute_f_prod"
   ],
   "note": "M, sign and weight proved for all histories; the trial ratio misses the trials named in C03"
  },
  {
   "property": "C06",
   "status": "proved",
   "theorems": [
    "CTInt.C06_remove"
   ],
   "note": ""
  },
  {
   "property": "C07",
   "status": "proved",
   "theorems": [
    "CTInt.C07_reject_restores",
    "CTInt.C07_no_trace",
    "CTInt.C07_other_trials_throw"
   ],
   "note": "every trial on every reachable state: either it throws or its rejection restores everything"
  },
  {
   "property": "C08",
   "status": "proved",
   "theorems": [
    "CTInt.C08_vertex_list",
    "CTInt.C08_finish",
    "CTInt.C08_runs"
   ],
   "note": ""
  },
  {
   "property": "C09",
   "status": "proved",
   "theorems": [
    "CTInt.C09_distinct",
    "CTInt.C09_never_reused"
   ],
   "note": "ids are natural numbers: the 64-bit counter does not wrap in the model"
  },
  {
   "property": "C10",
   "status": "partial",
   "theorems": [
    "CTInt.C10_finish_partial",
    "CTInt.C10_violation"
   ],
   "note": "the claim is false for interactions with a term that does not touch every flavor; exact condition proved"
  },
  {
   "property": "C100",
   "status": "proved",
   "theorems": [
    "CTInt.C100_green",
    "CTInt.C100_partition",
    "CTInt.C100_density",
    "CTInt.C100_product",
    "CTInt.C100_product_same",
    "CTInt.C100_square",
    "CTInt.C100_reconstructed",
    "CTInt.C100_archive",
    "CTInt.C100_mean"
   ],
   "note": "The hypothesis of C95-C99 that the bare Green's function is exactly that of a Hamiltonian is replaced by one on the values in the file. The densities have the error from the time difference 1e-10 \u03b2 taken for equal times (equalTimeError) as in C97. fine_runs shows that such runs exist for every Hubbard model, for every N and with exact values. The bound on the number of vertices M is fixed before the grid."
  },
  {
   "property": "C101",
   "status": "proved",
   "theorems": [
    "CTInt.C101_green",
    "CTInt.C101_densities",
    "CTInt.C101_product",
    "CTInt.C101_product_same"
   ],
   "note": "The weights of configurations must vanish at most on sets of measure zero (otherwise the updates cannot leave some configurations), and for the Green's function terms and file must be those of a Hermitian Hamiltonian, as in C94. The numbers of Legendre polynomials, bins and vertices are fixed in this order before the grid. The densities have the error from the time difference 1e-10 \u03b2 taken for equal times (equalTimeError) as in C97. atomic_programs shows that such programs exist for any number of sites without hopping and any U other than 0."
  },
  {
   "property": "C102",
   "status": "proved",
   "theorems": [
    "CTInt.C102_size",
    "CTInt.C102_order",
    "CTInt.C102_fine",
    "CTInt.C102_program"
   ],
   "note": "The program averages sizes with absolute values of weights; with weights of both signs these are not thermal averages, hence the hypothesis of nonnegative weights in C102_program (met for instance by any number of sites without hopping and U > 0). Weights must vanish at most on sets of measure zero as in C101."
  },
  {
   "property": "C103",
   "status": "proved",
   "theorems": [
    "CTInt.C103_terms",
    "CTInt.C103_average",
    "CTInt.C103_greens",
    "CTInt.C103_product",
    "CTInt.C103_green",
    "CTInt.C103_program"
   ],
   "note": "The weights must vanish at most on sets of measure zero (FineProgram, as in C101). PHFile is the particle-hole symmetry of the file of C90; it makes the weights nonnegative, so that averages with absolute values of the weights are those with the weights."
  },
  {
   "property": "C104",
   "status": "proved",
   "theorems": [
    "CTInt.C104_double",
    "CTInt.C104_density",
    "CTInt.C104_order",
    "CTInt.C104_sigma",
    "CTInt.C104_apart",
    "CTInt.C104_sigma_apart"
   ],
   "note": "Unlike C103 there is no hypothesis on the weights: that they vanish at most on sets of measure zero is proved for such a file. isolated_exist shows that such programs exist for any number of sites and of points of time."
  },
  {
   "property": "C105",
   "status": "proved",
   "theorems": [
    "CTInt.C105_half",
    "CTInt.C105_density",
    "CTInt.C105_order"
   ],
   "note": "The weights must vanish at most on sets of measure zero (FineProgram, as in C101); shown for sites without hopping. chain_bipartite and dimer_bipartite are lattices with hopping that meet the hypotheses of C105_half."
  },
  {
   "property": "C106",
   "status": "proved",
   "theorems": [
    "CTInt.C106_model",
    "CTInt.C106_density",
    "CTInt.C106_green"
   ],
   "note": "The weights must vanish at most on sets of measure zero (FineProgram, as in C101). The common number for the densities is the thermal density of flavor 0 averaged over the sites plus the error from the time difference taken for equal times."
  },
  {
   "property": "C107",
   "status": "proved",
   "theorems": [
    "CTInt.C107_error",
    "CTInt.C107_green",
    "CTInt.C107_densities",
    "CTInt.C107_half",
    "CTInt.C107_product",
    "CTInt.C107_product_table",
    "CTInt.C107_product_same"
   ],
   "note": "Holds for the programs of C101 (FineProgram): a file that lists the bare Green's function on a fine enough grid, weights that vanish at most on sets of measure zero."
  },
  {
   "property": "C108",
   "status": "proved",
   "theorems": [
    "CTInt.C108_density",
    "CTInt.C108_pair",
    "CTInt.C108_written",
    "CTInt.C108_product"
   ],
   "note": "Holds for the programs of C101 (FineProgram). That single measurements can lie outside the bounds is a remark, not proved here."
  },
  {
   "property": "C109",
   "status": "proved",
   "theorems": [
    "CTInt.C109_call",
    "CTInt.C109_run",
    "CTInt.C109_simulation"
   ],
   "note": "Counts the updates started; an update that finds nothing to do is counted. Global updates are not counted."
  },
  {
   "property": "C11",
   "status": "proved",
   "theorems": [
    "CTInt.C11_inc_detRatioUp",
    "CTInt.C11_inc_inverseUp",
    "CTInt.C11_src_detRatioUp",
    "CTInt.C11_src_inverseUp2",
    "CTInt.C11_src_inverseUpBlocks",
    "CTInt.C11_missing"
   ],
   "note": "exact arithmetic over any field"
  },
  {
   "property": "C12",
   "status": "proved",
   "theorems": [
    "CTInt.C12_inc_detRatioDownLast",
    "CTInt.C12_inc_inverseDownLast",
    "CTInt.C12_inc_inverseDownLast_refuses",
    "CTInt.C12_src_detRatioDown",
    "CTInt.C12_src_inverseDown",
    "CTInt.C12_src_inverseDown_refuses",
    "CTInt.C12_inc_inverseDownRC"
   ],
   "note": "both libraries, trailing block and ascending position lists"
  },
  {
   "property": "C13",
   "status": "proved",
   "theorems": [
    "CTInt.C13_inc_detRatioDownRC"
   ],
   "note": ""
  },
  {
   "property": "C14",
   "status": "proved",
   "theorems": [
    "CTInt.C14_swap_to_end",
    "CTInt.C14_matrix_swaps"
   ],
   "note": ""
  },
  {
   "property": "C15",
   "status": "partial",
   "theorems": [
    "CTInt.C15_inc_replace_partial",
    "CTInt.C15_src_detRatioReplace_partial",
    "CTInt.C15_src_inverseReplace_partial",
    "CTInt.C15_inc_replace_violation",
    "CTInt.C15_src_inverseReplace_violation_size",
    "CTInt.C15_src_inverseReplace_violation_value"
   ],
   "note": "holds for the library in include/ when the common leading block is invertible (as the property says); the helper returns 0 otherwise although the ratio may be non-zero (witness). src/fastupdate_formula.h l.808 writes the wrong block: update correct only when nothing is kept; violation proved for all other sizes"
  },
  {
   "property": "C16",
   "status": "partial",
   "theorems": [
    "CTInt.C16_inc_detRatioLastRow",
    "CTInt.C16_inc_inverseLastRow",
    "CTInt.C16_inc_detRatioLastCol",
    "CTInt.C16_inc_inverseLastCol",
    "CTInt.C16_src_detRatioReplaceRow",
    "CTInt.C16_src_replaceRow_partial",
    "CTInt.C16_src_replaceRow_violation"
   ],
   "note": "proved for include/ and for the ratio in src/; compute_imverse_matrix_replace_row (src/) lacks a return statement, so every call is undefined although the matrix it stores is right"
  },
  {
   "property": "C17",
   "status": "proved",
   "theorems": [
    "CTInt.C17_diag_ratio",
    "CTInt.C17_diag_inverse"
   ],
   "note": ""
  },
  {
   "property": "C18",
   "status": "proved",
   "theorems": [
    "CTInt.C18_safeDet",
    "CTInt.C18_safeInv",
    "CTInt.C18_determinant_members",
    "CTInt.C18_invert"
   ],
   "note": "real or complex scalars, exact arithmetic"
  },
  {
   "property": "C19",
   "status": "proved",
   "theorems": [
    "CTInt.C19_calls",
    "CTInt.C19_call",
    "CTInt.C19_defined",
    "CTInt.C19_start",
    "CTInt.C19_table",
    "CTInt.C19_determinant",
    "CTInt.C19_gemm",
    "CTInt.C19_copyBlock",
    "CTInt.C19_bound_violation"
   ],
   "note": "Buffer and logical size over all sequences of calls; also determinant, gemm and copy_block. C19_bound_violation records that operator() admits the row after the last, which can lie outside the buffer."
  },
  {
   "property": "C20",
   "status": "partial",
   "theorems": [
    "CTInt.C20_comb_sort_partial",
    "CTInt.C20_unique",
    "CTInt.C20_empty_violation"
   ],
   "note": "Sorting, permutation sign and termination for every non-empty range; the empty range reads the end iterator and runs forever or is undefined (violation theorem)."
  },
  {
   "property": "C21",
   "status": "proved",
   "theorems": [
    "CTInt.C21_sign",
    "CTInt.C21_diverges"
   ],
   "note": ""
  },
  {
   "property": "C22",
   "status": "proved",
   "theorems": [
    "CTInt.C22_clusters"
   ],
   "note": ""
  },
  {
   "property": "C23",
   "status": "partial",
   "theorems": [
    "CTInt.C23_partition",
    "CTInt.C23_chains_partial",
    "CTInt.C23_violation"
   ],
   "note": "Partition for every relation; groups are components when no later site joins two groups; otherwise connected sites are put into different groups (violation theorem)."
  },
  {
   "property": "C24",
   "status": "partial",
   "theorems": [
    "CTInt.C24_histories_partial",
    "CTInt.C24_from_list_partial",
    "CTInt.C24_rebuild",
    "CTInt.C24_replace_many_violation",
    "CTInt.C24_replace_many_witness",
    "CTInt.C24_singular_rest_violation",
    "CTInt.C24_singular_rest_witness",
    "CTInt.C24_past_end_violation",
    "CTInt.C24_past_end_witness"
   ],
   "note": "All histories of insertions, removals, single replacements and combined changes, from the empty object or a list: exact ratios, determinant, sign and inverse. Not true in general, three violations proved: replacing two or more annihilators is ignored with ratio 1, replacing two or more creators reads past the end, a combined change whose remaining matrix is singular reports 0."
  },
  {
   "property": "C25",
   "status": "partial",
   "theorems": [
    "CTInt.C25_reject_partial",
    "CTInt.C25_impossible_removal_violation",
    "CTInt.C25_impossible_removal_witness",
    "CTInt.C25_impossible_exchange_violation",
    "CTInt.C25_impossible_exchange_witness",
    "CTInt.C25_impossible_exchange_debug"
   ],
   "note": "Holds for every valid trial, impossible insertions, uneven changes and combined changes with singular rest. False for impossible removals and impossible combined changes: rejecting them restores operators of an earlier, accepted update (proved with witnesses). Built with asserts, rejecting an impossible combined change stops the program (C25_impossible_exchange_debug)."
  },
  {
   "property": "C26",
   "status": "partial",
   "theorems": [
    "CTInt.C26_second_trial_debug",
    "CTInt.C26_second_trial_partial",
    "CTInt.C26_second_trial_violation",
    "CTInt.C26_second_trial_witness",
    "CTInt.C26_no_trial_partial",
    "CTInt.C26_no_trial_violation",
    "CTInt.C26_perform_violation",
    "CTInt.C26_perform_witness"
   ],
   "note": "Second trial: exact in a build with asserts; in a release build it raises logic_error but overwrites update_mode_, after which the pending trial can be neither performed nor rejected. No trial: exact except after empty or uneven trials (silent), on a fresh object (uninitialised read) and for perform_update after a combined change (inverse overwritten before the check)."
  },
  {
   "property": "C27",
   "status": "partial",
   "theorems": [
    "CTInt.C27_in_step_partial",
    "CTInt.C27_rejected_duplicate_violation",
    "CTInt.C27_accepted_duplicate_violation",
    "CTInt.C27_rejected_duplicate_debug",
    "CTInt.C27_accepted_duplicate_debug"
   ],
   "note": "In step over every history without equal times of operators of the same kind. The code violates the full claim: rejecting an impossible insertion at the time of an existing operator erases that operator from the global set; inserting at the time of an operator of another sector leaves the new operator out of the global set. Built with asserts, both stop the program."
  },
  {
   "property": "C28",
   "status": "proved",
   "theorems": [
    "CTInt.C28_two_flavors",
    "CTInt.C28_one_flavor",
    "CTInt.C28_refused",
    "CTInt.C28_decoupling",
    "CTInt.onsite_usable"
   ],
   "note": "Also proved: the average over the auxiliary states gives back the Hubbard interaction, and the table meets the demands of the walker theorems."
  },
  {
   "property": "C29",
   "status": "proved",
   "theorems": [
    "CTInt.C29_in_range",
    "CTInt.C29_total",
    "CTInt.C29_file"
   ],
   "note": "For every behaviour of the input stream (failed extractions included); release build never undefined. The asserts itmp==idx, rank==2 are a parameter."
  },
  {
   "property": "C30",
   "status": "partial",
   "theorems": [
    "CTInt.C30_round_trip_partial",
    "CTInt.C30_same_partial",
    "CTInt.C30_written",
    "CTInt.C30_garbled",
    "CTInt.C30_violation"
   ],
   "note": "dump prints times with the default precision of six digits: types, fields and order come back exactly, times only if they have at most six significant digits. Counterexample proved. A file written with enough digits is read as it is, however the times are spelled; an unreadable time gives a vertex at 0 and garbage after it, unreported."
  },
  {
   "property": "C31",
   "status": "partial",
   "theorems": [
    "CTInt.C31_violation",
    "CTInt.C31_free_time_partial"
   ],
   "note": "push_back constructs the exception but does not throw it: the property is false for every occupied time. Proved for free times."
  },
  {
   "property": "C32",
   "status": "proved",
   "theorems": [
    "CTInt.C32_distinct",
    "CTInt.C32_returns",
    "CTInt.C32_diverges",
    "CTInt.C32_uniform"
   ],
   "note": "For N = 0 < n the code reads an empty array (undefined) instead of running forever; both outcomes are in C32_diverges."
  },
  {
   "property": "C33",
   "status": "proved",
   "theorems": [
    "CTInt.C33_mymod",
    "CTInt.C33_negative_multiple"
   ],
   "note": ""
  },
  {
   "property": "C34",
   "status": "proved",
   "theorems": [
    "CTInt.C34_normalised",
    "CTInt.C34_symmetric",
    "CTInt.C34_maximum",
    "CTInt.C34_prefactors",
    "CTInt.C34_rejection",
    "CTInt.C34_law"
   ],
   "note": ""
  },
  {
   "property": "C35",
   "status": "proved",
   "theorems": [
    "CTInt.C35_time_in_window",
    "CTInt.C35_window_reached"
   ],
   "note": "Time 0 itself is not drawn for a window that wraps around."
  },
  {
   "property": "C36",
   "status": "proved",
   "theorems": [
    "CTInt.C36_pairs",
    "CTInt.C36_no_pair"
   ],
   "note": "The discrete distribution of boost is an assumed primitive: index k with probability weight k / sum."
  },
  {
   "property": "C37",
   "status": "proved",
   "theorems": [
    "CTInt.C37_acceptance",
    "CTInt.C37_insertion_draw",
    "CTInt.C37_detailed_balance",
    "CTInt.C37_pairs"
   ],
   "note": "Probabilities are volumes of the set of random numbers; one insertion or removal step of a vertex; C37_pairs: correction factors of pair insertion and removal are reciprocal."
  },
  {
   "property": "C38",
   "status": "proved",
   "theorems": [
    "CTInt.C38_max_order",
    "CTInt.C38_within_update"
   ],
   "note": ""
  },
  {
   "property": "C39",
   "status": "proved",
   "theorems": [
    "CTInt.C39_spin_flip",
    "CTInt.C39_shift",
    "CTInt.C39_multiset"
   ],
   "note": ""
  },
  {
   "property": "C40",
   "status": "partial",
   "theorems": [
    "CTInt.C40_counts_partial",
    "CTInt.C40_violation"
   ],
   "note": "The code takes a returned ratio of 1 for a rejection, so an accepted move with ratio exactly 1 is counted as rejected (C40_violation); moves with another ratio are counted right (C40_counts_partial)."
  },
  {
   "property": "C41",
   "status": "partial",
   "theorems": [
    "CTInt.C41_decision",
    "CTInt.C41_loop",
    "CTInt.C41_built_object",
    "CTInt.C41_moves_partial",
    "CTInt.C41_no_effect",
    "CTInt.C41_violation",
    "CTInt.C41_moves_violation"
   ],
   "note": "The solver pointer is passed by value, so an accepted move has no effect (C41_no_effect, C41_violation); files whose maps are not permutations are accepted (C41_moves_violation). Proved: the decision, the object built locally, and closure under inverses for files of permutations."
  },
  {
   "property": "C42",
   "status": "proved",
   "theorems": [
    "CTInt.C42_operators",
    "CTInt.C42_times",
    "CTInt.C42_times_small",
    "CTInt.C42_flavors",
    "CTInt.antiperiodic_exists"
   ],
   "note": "Both forms of the call. The second form moves a multiple of beta by 1e-8 (C42_times), which leaves the interval if beta < 1e-8 (C42_times_small)."
  },
  {
   "property": "C43",
   "status": "proved",
   "theorems": [
    "CTInt.C43_interpolate",
    "CTInt.C43_outside"
   ],
   "note": ""
  },
  {
   "property": "C44",
   "status": "proved",
   "theorems": [
    "CTInt.C44_spline",
    "CTInt.C44_deriv_partial",
    "CTInt.C44_deriv_violation",
    "CTInt.C44_unique",
    "CTInt.C44_computes"
   ],
   "note": "C44_spline is the whole statement for the value. The extra claim about deriv(order, t) holds everywhere except order 2 left of the first point, where the code returns 2*b0*h instead of 2*b0 (C44_deriv_violation)."
  },
  {
   "property": "C45",
   "status": "proved",
   "theorems": [
    "CTInt.C45_scalar",
    "CTInt.C45_array",
    "CTInt.C45_weights",
    "CTInt.C45_empty_violation",
    "CTInt.C45_small_buffer"
   ],
   "note": "For at least one polynomial. With n_legendre = 0 the constructor writes outside its table (C45_empty_violation). The polynomials are specified by the formula of Rodrigues."
  },
  {
   "property": "C46",
   "status": "proved",
   "theorems": [
    "CTInt.C46_reference",
    "CTInt.C46_optimised",
    "CTInt.C46_agree"
   ],
   "note": "Over exact arithmetic; Green function given by its values (discharged for the modelled Green class by CTInt.measure_green)."
  },
  {
   "property": "C47",
   "status": "proved",
   "theorems": [
    "CTInt.C47_bin",
    "CTInt.C47_stau"
   ],
   "note": "Over exact arithmetic; rounding of time/dtau is not modelled."
  },
  {
   "property": "C48",
   "status": "proved",
   "theorems": [
    "CTInt.measureDensities_spec",
    "CTInt.C48_round_trip"
   ],
   "note": "ALPSCore accumulators modelled as arithmetic means of the values passed in."
  },
  {
   "property": "C49",
   "status": "partial",
   "theorems": [
    "CTInt.C49_one_bin",
    "CTInt.C49_histogram_partial",
    "CTInt.C49_rebin",
    "CTInt.C49_rebin_zero",
    "CTInt.C49_rebin_cutoff",
    "CTInt.C49_orders",
    "CTInt.C49_max_index",
    "CTInt.C49_top_index",
    "CTInt.C49_clear",
    "CTInt.C49_flat",
    "CTInt.C49_max",
    "CTInt.C49_constructor_violation",
    "CTInt.C49_far_violation"
   ],
   "note": "A sample whose bin number does not fit an int, and any sample in a histogram made by the constructor with arguments, is undefined behaviour; everything else is proved."
  },
  {
   "property": "C50",
   "status": "proved",
   "theorems": [
    "CTInt.C50_rates"
   ],
   "note": "For non-negative initial rates with a positive first one."
  },
  {
   "property": "C51",
   "status": "proved",
   "theorems": [
    "CTInt.C51_measure",
    "CTInt.C51_records",
    "CTInt.C51_fraction"
   ],
   "note": ""
  },
  {
   "property": "C52",
   "status": "proved",
   "theorems": [
    "CTInt.C52_together",
    "CTInt.C52_no_deadlock",
    "CTInt.C52_ends",
    "CTInt.C52_stop",
    "CTInt.C52_bounded"
   ],
   "note": "all_reduce is taken to be a collective sum."
  },
  {
   "property": "C53",
   "status": "proved",
   "theorems": [
    "CTInt.C53_updates_never_fail",
    "CTInt.C53_returned_ratio",
    "CTInt.C53_solver_updates"
   ],
   "note": ""
  },
  {
   "property": "C54",
   "status": "partial",
   "theorems": [
    "CTInt.C54_involution_partial",
    "CTInt.C54_violation"
   ],
   "note": "Holds for moves that are their own inverse; fails for a cyclic exchange of three types."
  },
  {
   "property": "C55",
   "status": "partial",
   "theorems": [
    "CTInt.C55_single_partial",
    "CTInt.C55_each_partial",
    "CTInt.C55_violation"
   ],
   "note": "With more than one process, those not asked to stop themselves report completion."
  },
  {
   "property": "C56",
   "status": "partial",
   "theorems": [
    "CTInt.C56_read",
    "CTInt.C56_total",
    "CTInt.C56_reject",
    "CTInt.C56_missing",
    "CTInt.C56_accept",
    "CTInt.C56_two_points_violation",
    "CTInt.C56_no_lines_violation",
    "CTInt.C56_natural"
   ],
   "note": "Holds for at least three grid points and at least one line of data; otherwise the call is undefined instead of throwing (the two violations). Files that are cut within a line are in C92."
  },
  {
   "property": "C57",
   "status": "partial",
   "theorems": [
    "CTInt.C57_wick_partial",
    "CTInt.C57_wick_real",
    "CTInt.C57_complex_violation",
    "CTInt.C57_phase_violation"
   ],
   "note": "Proved when the off-diagonal density matrix products and the sign are real (always so for the real build). For complex Green functions the code drops imaginary parts before multiplying, and for complex signs it records a product of real parts: both counterexamples are proved."
  },
  {
   "property": "C58",
   "status": "proved",
   "theorems": [
    "CTInt.postBinning_spec",
    "CTInt.C58_binning"
   ],
   "note": "The transform to Matsubara frequencies that follows is in C61 and C76."
  },
  {
   "property": "C59",
   "status": "partial",
   "theorems": [
    "CTInt.C59_violation"
   ],
   "note": "The property is false: for every well-formed term and every announced number the missing terms become copies of the last one read (release build). Well-formed files are covered by C29_file."
  },
  {
   "property": "C60",
   "status": "proved",
   "theorems": [
    "CTInt.C60_full_determinant",
    "CTInt.C60_from_list"
   ],
   "note": "Over fields; trials that DeterminantMatrix itself gets wrong in a sector (C24) are excluded from the histories. Built with asserts, accepted changes must not leave the matrix without operators (C81)."
  },
  {
   "property": "C61",
   "status": "proved",
   "theorems": [
    "CTInt.C61_matrix",
    "CTInt.C61_frequencies",
    "CTInt.C61_coefficients"
   ],
   "note": "Assumes of boost::math::sph_bessel that it is the spherical Bessel function for positive arguments (IsSphBessel). Over the reals. At least one Legendre coefficient: with none the code reads outside its arrays (C45_empty_violation)."
  },
  {
   "property": "C62",
   "status": "proved",
   "theorems": [
    "CTInt.C62_updates_return",
    "CTInt.C62_fair"
   ],
   "note": "Independent random numbers uniform in [0,1) are the product measure `streams` on sequences."
  },
  {
   "property": "C63",
   "status": "proved",
   "theorems": [
    "CTInt.C63_stationary",
    "CTInt.C63_detailed_balance",
    "CTInt.C63_objects"
   ],
   "note": "C63_objects: the objects the theorem speaks of exist for every list of vertices."
  },
  {
   "property": "C64",
   "status": "proved",
   "theorems": [
    "CTInt.C64_stationary",
    "CTInt.C64_probability",
    "CTInt.C64_normalised",
    "CTInt.C64_objects",
    "CTInt.C64_table"
   ],
   "note": "Global updates are not part of the sequence (C41, C54 treat them); U_scale is 1 as in a run after thermalisation. The random numbers are the product measure `streams`."
  },
  {
   "property": "C65",
   "status": "partial",
   "theorems": [
    "CTInt.C65_rate_partial",
    "CTInt.C65_shift_violation"
   ],
   "note": "The code violates the claim for shifts: acc_rate_shift is never counted, so VertexShift_Acceptance_Rate is 0/0 at every measurement (C65_shift_violation). Insertions and removals: proved, except that accepted moves of weight ratio exactly 1 count as rejected (see C40)."
  },
  {
   "property": "C66",
   "status": "proved",
   "theorems": [
    "CTInt.C66_record",
    "CTInt.C66_wick"
   ],
   "note": "Real arithmetic. Density correlations: the code takes real parts before applying Wick's formula, as stated in C66_record; C66_wick is the determinant identity for the unprojected values."
  },
  {
   "property": "C67",
   "status": "partial",
   "theorems": [
    "CTInt.C67_law",
    "CTInt.C67_sign",
    "CTInt.C67_density",
    "CTInt.C67_self_energy",
    "CTInt.C67_ratio",
    "CTInt.C67_recorded",
    "CTInt.C67_density_complex_partial",
    "CTInt.C67_complex_violation"
   ],
   "note": "Law of configuration and unused random numbers: proved for real and complex weights. Sign: proved for both. Density and self-energy: proved for real weights; for complex weights the code records Re(phase) * Re(ratio) instead of Re(phase * ratio), so the claim for the density fails (C67_complex_violation) and only C67_density_complex_partial holds. Configurations of weight exactly 0 are never visited and do not contribute. Random numbers: independent uniform reals; real arithmetic. The self-energy with complex weights is in C77."
  },
  {
   "property": "C68",
   "status": "partial",
   "theorems": [
    "CTInt.C68_ratio",
    "CTInt.C68_inverse_partial",
    "CTInt.C68_singular_iff",
    "CTInt.C68_row_col2",
    "CTInt.C68_violation",
    "CTInt.C68_row_col2_violation",
    "CTInt.C68_successive_partial",
    "CTInt.C68_successive_empty",
    "CTInt.C68_single_throws",
    "CTInt.C68_single",
    "CTInt.C68_safe",
    "CTInt.C68_consistent_partial",
    "CTInt.C68_refused"
   ],
   "note": "The ratio is always right for replace_row_col, and for the other functions under their stated assumption. The inverse is right when the matrix without the row and column is not (nearly) singular. When it is singular the code leaves out a term: the matrix written is the inverse if and only if the new diagonal element is 0 (C68_singular_iff; witness C68_violation). replace_row_col2 returns a wrong ratio when its assumption fails (C68_row_col2_violation). The successive version is undefined for an empty list. Not stated: the error made when the remaining determinant is not zero but below the threshold. Real elements, exact arithmetic."
  },
  {
   "property": "C69",
   "status": "proved",
   "theorems": [
    "CTInt.C69_ordered",
    "CTInt.C69_exchanged",
    "CTInt.C69_orders_differ",
    "CTInt.C69_generate_indices",
    "CTInt.C69_generate_indices_ub"
   ],
   "note": ""
  },
  {
   "property": "C70",
   "status": "proved",
   "theorems": [
    "CTInt.C70_law",
    "CTInt.C70_returns",
    "CTInt.C70_zero",
    "CTInt.C70_bound_needed",
    "CTInt.C70_pair_distance"
   ],
   "note": "Random numbers are independent and uniform in [0,1); exact arithmetic."
  },
  {
   "property": "C71",
   "status": "proved",
   "theorems": [
    "CTInt.C71_form",
    "CTInt.C71_law",
    "CTInt.C71_drawn_types",
    "CTInt.C71_pair_density",
    "CTInt.C71_density_throws",
    "CTInt.C71_not_ascending"
   ],
   "note": "C71_not_ascending: the parameter update.double_vertex_update_pairs accepts pairs that are not ascending, and these run into the assertion."
  },
  {
   "property": "C72",
   "status": "proved",
   "theorems": [
    "CTInt.C72_converge",
    "CTInt.C72_limit",
    "CTInt.C72_stuck",
    "CTInt.C72_bounded_below",
    "CTInt.C72_stuck_case"
   ],
   "note": "Exact arithmetic, independent uniform random numbers. C72_bounded_below gives a sufficient condition for the assumption of C72_converge; C72_stuck and C72_stuck_case show that without an assumption the convergence fails."
  },
  {
   "property": "C73",
   "status": "proved",
   "theorems": [
    "CTInt.C73_sign",
    "CTInt.C73_rate",
    "CTInt.C73_density",
    "CTInt.C73_self_energy",
    "CTInt.C73_ratio",
    "CTInt.C73_self_energy_ratio",
    "CTInt.C73_rate_density",
    "CTInt.C73_rate_self_energy",
    "CTInt.C73_rate_ratio",
    "CTInt.C73_rate_self_energy_ratio"
   ],
   "note": "Exact arithmetic, independent uniform random numbers. The condition is that of C72 (CanShrink); for densities and self-energy the weights of all configurations with at most maxOrder vertices are assumed bounded away from zero, which implies it."
  },
  {
   "property": "C74",
   "status": "partial",
   "theorems": [
    "CTInt.C74_debug_equals_release_partial",
    "CTInt.C74_debug_trial",
    "CTInt.C74_check_accepts",
    "CTInt.C74_check_iff",
    "CTInt.C74_sign_exact",
    "CTInt.C74_check_batch",
    "CTInt.C74_check_blind",
    "CTInt.C74_debug_aborts"
   ],
   "note": "Missing because the code violates it: an admissible trial that restores the field a vertex had at the start of the batch, other than that of a vertex inserted in the batch, aborts in the debug build (C74_debug_trial characterises these trials, C74_debug_aborts is a witness in which the release build returns the right ratio). The comparison announced as a check of the stored inverse never looks at its entries (C74_check_blind): a wrong inverse passes and is silently replaced. During a batch the check accepts exactly the matrices whose mean squared error is below 1E-5 (C74_check_batch)."
  },
  {
   "property": "C75",
   "status": "proved",
   "theorems": [
    "CTInt.C75_lu_product",
    "CTInt.C75_lu_product_empty",
    "CTInt.C75_phase",
    "CTInt.C75_as_product",
    "CTInt.C75_as_product_sectors"
   ],
   "note": "Eigen::FullPivLU is a parameter that returns some decomposition P A Q = L U (one exists for every matrix: exists_lu); std::sort is a parameter that returns the same numbers ordered by modulus."
  },
  {
   "property": "C76",
   "status": "proved",
   "theorems": [
    "CTInt.C76_archive"
   ],
   "note": "Real weights. The hypothesis that the weights of configurations with at most max_order vertices stay away from zero makes the recorded ratios bounded. mean<T>() of ALPSCore is sum over count; sph_bessel is the spherical Bessel function; floating point is not modelled."
  },
  {
   "property": "C77",
   "status": "proved",
   "theorems": [
    "CTInt.C77_self_energy",
    "CTInt.C77_self_energy_real"
   ],
   "note": "The densities and their products are wrong for complex weights (C57, C67), so they are not part of this claim. Assumptions as in C76. That the partition function is real, a hypothesis of C77_self_energy_real, is proved for Hermitian Hamiltonians in C94."
  },
  {
   "property": "C78",
   "status": "proved",
   "theorems": [
    "CTInt.C78_recorded",
    "CTInt.C78_read_back",
    "CTInt.C78_legendre_missing"
   ],
   "note": "The accumulator sets of ALPSCore are modelled as maps from names to lists of values: creating a taken name and using a missing one throws. C78_legendre_missing: the unused evaluation in the Legendre basis reads observables that are never created."
  },
  {
   "property": "C79",
   "status": "proved",
   "theorems": [
    "CTInt.C79_same_chain",
    "CTInt.C79_same_measurements",
    "CTInt.C79_green",
    "CTInt.C79_green_check_detects"
   ],
   "note": "Exact arithmetic: with rounding the tolerances of the checks matter, which is not modelled. The trials at which the debug build of the object stops (C74_debug_aborts) are never made by the update manager. C79_green_check_detects: the check in interpolate does stop the program on a table with wrong coefficients."
  },
  {
   "property": "C80",
   "status": "proved",
   "theorems": [
    "CTInt.C80_onsite",
    "CTInt.C80_file",
    "CTInt.C80_parameters",
    "CTInt.C80_hubbard",
    "CTInt.C80_green",
    "CTInt.C80_green_defined",
    "CTInt.C80_ready",
    "CTInt.C80_runs",
    "CTInt.C80_archive",
    "CTInt.C80_total",
    "CTInt.C80_refused",
    "CTInt.C80_legendre_violation"
   ],
   "note": "Simplified: negative integers are modelled only for the measurement period; GLOBAL_UPDATES is not given. C80_archive: real weights, bounded away from zero up to max_order (as in C72, C76). C80_legendre_violation: no check on the number of Legendre polynomials."
  },
  {
   "property": "C81",
   "status": "partial",
   "theorems": [
    "CTInt.C81_only_checks",
    "CTInt.C81_only_checks_sectors",
    "CTInt.C81_same_run",
    "CTInt.C81_same_run_sectors_partial",
    "CTInt.C81_emptied_violation",
    "CTInt.C81_empty_list_violation"
   ],
   "note": "Partial: accepting a change that takes the last operators out of the partitioned matrix, or building it from an empty list, is undefined in a debug build (comb_sort moves an iterator past the end of an empty vector), while the release build does it right (proved)."
  },
  {
   "property": "C82",
   "status": "partial",
   "theorems": [
    "CTInt.C82_numbers",
    "CTInt.C82_conserved",
    "CTInt.C82_valid_pairs",
    "CTInt.C82_pairs_needed",
    "CTInt.C82_order_ub_violation",
    "CTInt.C82_order_value_violation"
   ],
   "note": "Proved for make_quantum_numbers given a function that answers whether two sites of a flavor are unconnected. Partial: the function actually called, green_function::is_zero, takes the flavor first while the sites are passed first; with more sites than flavors this reads the Green function outside its range, and with two sites and two flavors it gives wrong numbers (both proved)."
  },
  {
   "property": "C83",
   "status": "partial",
   "theorems": [
    "CTInt.C83_types",
    "CTInt.C83_generate",
    "CTInt.C83_generate_law",
    "CTInt.C83_generate_pair",
    "CTInt.C83_pick",
    "CTInt.C83_pick_law",
    "CTInt.C83_pick_pair",
    "CTInt.C83_count_violation",
    "CTInt.C83_window_law"
   ],
   "note": "Partial only because the code violates the claim in one function: count_valid_vertex_pair writes outside of a vector that is only reserved as soon as one vertex is counted, which is proved. Laws of types, states and times are proved without and with a window. pick_up_itime_vertices returns for streams that hit every position again and again, which almost every stream does."
  },
  {
   "property": "C84",
   "status": "partial",
   "theorems": [
    "CTInt.C84_arc",
    "CTInt.C84_order",
    "CTInt.C84_shift",
    "CTInt.C84_smallest",
    "CTInt.C84_shift_violation"
   ],
   "note": "Partial: shift invariance holds if the unit vectors that point to the vertices do not add up to zero; otherwise it fails (witness with four vertices). Real numbers for doubles; atan2 is the argument of a complex number."
  },
  {
   "property": "C85",
   "status": "partial",
   "theorems": [
    "CTInt.C85_cutoff",
    "CTInt.C85_mean",
    "CTInt.C85_bounds_partial",
    "CTInt.C85_adapt",
    "CTInt.C85_report",
    "CTInt.C85_no_flavor_violation",
    "CTInt.C85_counters",
    "CTInt.C85_counters_reset"
   ],
   "note": "Partial: at least one flavour is needed (without one an assert fails) and positions must be convertible to a bin number (C49). Bins without samples have no mean (0/0). Exact real arithmetic."
  },
  {
   "property": "C86",
   "status": "partial",
   "theorems": [
    "CTInt.C86_pairs",
    "CTInt.C86_refused",
    "CTInt.C86_odd_violation",
    "CTInt.C86_word_violation",
    "CTInt.C86_useless_violation",
    "CTInt.C86_same_violation"
   ],
   "note": "Partial: holds for a list of an even number of numbers. An odd number reuses the previous second type or an unset variable, a word counts as type 0, and pairs in the wrong order, of one type, or with a density-density type are taken although their insertion fails an assert or throws."
  },
  {
   "property": "C87",
   "status": "partial",
   "theorems": [
    "CTInt.C87_permutation_partial",
    "CTInt.C87_permutation_violation",
    "CTInt.C87_remove",
    "CTInt.C87_identity",
    "CTInt.C87_order"
   ],
   "note": "Partial: permutation(N,k) is 1 instead of 0 for k >= N+2 because the first factor wraps around."
  },
  {
   "property": "C88",
   "status": "proved",
   "theorems": [
    "CTInt.C88_pooled",
    "CTInt.C88_program",
    "CTInt.C88_self_energy",
    "CTInt.C88_stopped_violation",
    "CTInt.C88_help"
   ],
   "note": "Assumptions as in C80 and C76 (C77 for complex weights): weights bounded away from zero up to max_order. The random numbers of each process are independent and uniform; those of different processes need not be independent of each other. collect_results pools the records of all processes. C88_stopped_violation: a run stopped before the first record reaches the post-processing without means. C88_help: with help requested nothing is run and nothing is written."
  },
  {
   "property": "C89",
   "status": "proved",
   "theorems": [
    "CTInt.C89_sign",
    "CTInt.C89_archive",
    "CTInt.C89_self_energy",
    "CTInt.C89_program",
    "CTInt.C89_program_self",
    "CTInt.C89_density_seen",
    "CTInt.C89_density_blind"
   ],
   "note": "Removes the bound on the weights from below of C73, C76, C77, C88 for runs without a file with a starting configuration. A pointwise ergodic theorem is proved for this (Proofs/Ergodic, Proofs/ErgodicProcess). No rate is given: the variance may be infinite."
  },
  {
   "property": "C90",
   "status": "proved",
   "theorems": [
    "CTInt.C90_green",
    "CTInt.C90_weight",
    "CTInt.C90_sum",
    "CTInt.C90_sign",
    "CTInt.C90_program",
    "CTInt.C90_converges"
   ],
   "note": "Real weights. Two equal vertices at the same time (a set of measure zero, which the code does not refuse, C31) are excluded in C90_weight."
  },
  {
   "property": "C91",
   "status": "proved",
   "theorems": [
    "CTInt.C91_weight",
    "CTInt.C91_sum",
    "CTInt.C91_limit",
    "CTInt.C91_order",
    "CTInt.C91_density",
    "CTInt.C91_products",
    "CTInt.C91_atom",
    "CTInt.C91_onsite",
    "CTInt.C91_positive",
    "CTInt.C91_green",
    "CTInt.C91_green_time",
    "CTInt.C91_program"
   ],
   "note": "Real weights. Two vertices at the same time (a set of measure zero, which the code does not refuse, C31) are excluded in C91_weight and C91_positive."
  },
  {
   "property": "C92",
   "status": "partial",
   "theorems": [
    "CTInt.C92_text",
    "CTInt.C92_incomplete_partial",
    "CTInt.C92_index_partial",
    "CTInt.C92_stale",
    "CTInt.C92_cut_violation",
    "CTInt.C92_empty_violation",
    "CTInt.C92_first_line_violation"
   ],
   "note": "Fails in the last line: a file cut after its four indices is accepted with the value of the grid point before (proved for every complete Hermitian file). Undefined if the file ends before the first line of data is complete. All other cuts and garbled words are proved to be refused."
  },
  {
   "property": "C93",
   "status": "partial",
   "theorems": [
    "CTInt.C93_text",
    "CTInt.C93_incomplete_partial",
    "CTInt.C93_defined",
    "CTInt.C93_cut_violation",
    "CTInt.C93_start_violation",
    "CTInt.C93_refused_partial"
   ],
   "note": "Fails in the last word: a file cut there is accepted, and the last type gets the destination of the type before, a move that nothing undoes (proved for every complete file with at least two types). A missing or empty file, or one that ends before its first line is complete, makes the code use variables without a value; a file that does not start with a number counts as without moves. Every other cut or garbled word is proved to be refused, and from the first complete line on every variable has a value."
  },
  {
   "property": "C94",
   "status": "proved",
   "theorems": [
    "CTInt.C94_weight",
    "CTInt.C94_real",
    "CTInt.C94_self_energy",
    "CTInt.C94_green",
    "CTInt.C94_onsite",
    "CTInt.C94_program"
   ],
   "note": "Assumptions of the limits as in C77 and C89: weights bounded away from zero, or zero only on sets of measure zero; partition function not zero. The file must have at least three grid points and the values between different sites at its two ends must add up to zero (the code does not check this). A term must not annihilate in one operator pair where another pair of the same flavor creates. Densities are not part of this claim (C57, C67)."
  },
  {
   "property": "C95",
   "status": "proved",
   "theorems": [
    "CTInt.C95_weight"
   ],
   "note": "The bare Green's function is assumed to be that of a hopping Hamiltonian in a space of finite dimension; the file with its splines only approximates such a function, C100 shows that the results converge with the grid. Configurations with two equal times, a set of measure zero, are excluded. fock_meets shows that the hypotheses can be met for all flavors, sites and hoppings."
  },
  {
   "property": "C96",
   "status": "proved",
   "theorems": [
    "CTInt.C96_partition",
    "CTInt.C96_partition_real"
   ],
   "note": "Assumptions as in C95; the bare Green's function is measurable (that of a Hamiltonian is: thermalG0_measurable)."
  },
  {
   "property": "C97",
   "status": "proved",
   "theorems": [
    "CTInt.C97_density",
    "CTInt.C97_density_real",
    "CTInt.C97_mean",
    "CTInt.C97_product",
    "CTInt.C97_square",
    "CTInt.C97_product_same"
   ],
   "note": "Assumptions as in C95 and C96. The sums over configurations are those to which the accumulated averages of a run converge (C67, C73, C76)."
  },
  {
   "property": "C98",
   "status": "proved",
   "theorems": [
    "CTInt.C98_self_energy",
    "CTInt.C98_legendre"
   ],
   "note": "Assumptions as in C95 and C96, and a bare Green's function that is antiperiodic and continued to all time differences as in C97. The sums over configurations are those to which the accumulated averages of a run converge (C67, C73, C76)."
  },
  {
   "property": "C99",
   "status": "proved",
   "theorems": [
    "CTInt.C99_dyson",
    "CTInt.C99_vertices",
    "CTInt.C99_bins",
    "CTInt.C99_polynomials",
    "CTInt.C99_written",
    "CTInt.C99_reconstructed",
    "CTInt.C99_archive"
   ],
   "note": "Assumptions as in C98. The convergence of the archives in the length of the run enters as a hypothesis (SelfTo), which C94 proves for almost every sequence of random numbers. The limits are taken in the order: Legendre polynomials, bins, vertices, length of the run (the last one innermost)."
  }
 ]
}

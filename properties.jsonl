{"id": "C01", "title": "Block extension keeps the exact inverse", "statement": "When non-interacting vertices are appended to a flavor's A matrix, the extended inverse produced by the solver is exactly the inverse of the A matrix built from scratch for the extended operator list, and the determinant of A is unchanged.", "quantifier": "every field of scalars, every current number of operators, every number of appended operators, every bare Green function and every auxiliary-field value", "why_tests_cant": "A test fixes sizes, a Green function and a tolerance; the identity must hold for every size and every G0, including the empty matrix.", "anchors": ["src/submatrix_impl/invA.ipp: InvAMatrix::extend, InvAMatrix::add_non_interacting_vertices", "src/submatrix.hpp: eval_f"]}
{"id": "C02", "title": "Fast and slow evaluation of G = A^-1 G0 agree", "statement": "For a column whose operator is interacting, the fast formula (f_j A^-1_ij - delta_ij)/(f_j-1) used to evaluate the interacting Green function returns exactly the same value as the defining product (A^-1 G0)_ij which is used for non-interacting columns.", "quantifier": "every matrix size, every G0, every field values alpha not in {1}, every pair of row and column", "why_tests_cant": "Agreement on sampled random matrices up to rounding does not exclude a special size or a special alpha for which the shortcut is wrong.", "anchors": ["src/submatrix_impl/invA.ipp: eval_Gij_cols_rows, eval_Gij_col_part", "src/submatrix.hpp: eval_f"]}
{"id": "C03", "title": "Spin-flip determinant ratio is exact", "statement": "After any sequence of accepted additions to, removals from, and additions-with-removals of the Gamma matrix since the last finalisation, the determinant ratio reported by a trial spin flip equals det(A_new)/det(A_current), where both A matrices are built from scratch for the configurations after and before the flip.", "quantifier": "every number of operators, every set of operators already flipped in the batch, every set of operators flipped by the trial, every G0 and alpha", "why_tests_cant": "The ratio is accumulated through an auxiliary matrix over arbitrarily long batches; tests only visit short batches from random seeds.", "anchors": ["src/submatrix_impl/gamma.ipp: try_add, try_remove, try_add_remove", "src/submatrix_impl/common.ipp: try_spin_flip", "src/submatrix.hpp: gamma_func, eval_f"]}
{"id": "C04", "title": "Finalising a batch yields the exact inverse", "statement": "Folding the accumulated Gamma matrix into A^-1 (matrix -= G[:,p] Gamma^-1 A^-1[p,:], then rows p divided by 1+gamma) gives exactly the inverse of the A matrix built from scratch for the flipped auxiliary fields.", "quantifier": "every size, every set p of flipped operators, every G0, alpha with alpha not in {0,1}", "why_tests_cant": "The identity is a Woodbury formula in a non-trivial arrangement; a tolerance test can pass with a wrong row order or wrong scaling for special gammas.", "anchors": ["src/submatrix_impl/invA.ipp: InvAMatrix::update_matrix", "src/submatrix_impl/gamma.ipp: eval_Gammaij"]}
{"id": "C05", "title": "M and the Monte Carlo weight agree with their definition", "statement": "The matrix M handed to measurements, (1-f) A^-1, is the inverse of G0 - alpha, and the weight reported from det(A), the product of (1-f) and the product of (-U) equals the product over flavors of det(G0-alpha) times the product of (-U). Consequently the weight ratio det_rat_A * (1/f_rat) * U_rat returned by a trial is the ratio of the from-scratch weights.", "quantifier": "every configuration: any number of vertices, flavors and sites, any alpha not equal to 1", "why_tests_cant": "Weights are only defined up to configuration; a test enumerates a handful of configurations.", "anchors": ["src/submatrix_impl/invA.ipp: compute_M, compute_f_prod, recompute_matrix", "src/submatrix_impl/common.ipp: compute_M_from_scratch, try_spin_flip, recompute_matrix", "src/interaction_expansion.ipp: compute_weight"]}
{"id": "C06", "title": "Dropping non-interacting operators keeps the inverse", "statement": "Removing the rows and columns of operators that ended a batch non-interacting leaves exactly the inverse of the A matrix of the surviving operators, and each surviving row still belongs to the operator recorded at the same position.", "quantifier": "every operator list, every set of removed positions, every order of swaps", "why_tests_cant": "The removal permutes rows by swaps whose pattern depends on the positions; only a proof covers every position set.", "anchors": ["src/submatrix_impl/invA.ipp: remove_rows_cols, swap handling", "src/submatrix.hpp: swap_rows_cols, swap_ops"]}
{"id": "C07", "title": "A rejected trial leaves no trace", "statement": "A trial spin flip that is rejected leaves vertices, auxiliary fields, A^-1, the Gamma matrices' operator sets and the sign exactly as before the trial (up to a consistent reordering inside the Gamma matrix), so the next trial sees the same configuration.", "quantifier": "every reachable solver state and every trial (any vertices, any new spins)", "why_tests_cant": "A leaked row in one of several parallel arrays shows up only in some later trial; finite tests cannot cover all trial sequences.", "anchors": ["src/submatrix_impl/common.ipp: try_spin_flip, reject_spin_flip, perform_spin_flip", "src/submatrix_impl/gamma.ipp: reject_add, reject_remove, reject_add_remove"]}
{"id": "C08", "title": "The vertex list is exactly the accepted edits", "statement": "Between two finalisations the list of interacting vertices equals the old list with the accepted insertions, removals and spin flips applied; finalisation removes exactly the non-interacting vertices and preserves the order and all attributes of the others.", "quantifier": "every sequence of init / try / perform / reject / finalize calls of any length", "why_tests_cant": "It is a statement about all call histories.", "anchors": ["src/submatrix_impl/common.ipp: init_update, perform_spin_flip, reject_spin_flip, finalize_update"]}
{"id": "C09", "title": "Vertex identifiers are never reused", "statement": "At every moment all vertices held by a solver object carry pairwise different identifiers, and an identifier handed out once is never handed out again, even after the vertex was removed.", "quantifier": "every history of updates on a solver object", "why_tests_cant": "Uniqueness over unbounded histories is not testable.", "anchors": ["src/submatrix_impl/common.ipp: SubmatrixUpdate constructors, init_update, gen_new_vertex_id"]}
{"id": "C10", "title": "Finalising never fails on a valid interaction", "statement": "finalize_update succeeds after any batch for any valid interaction, whatever flavors the operators of the removed or rejected vertices touch.", "quantifier": "every interaction table and every batch", "why_tests_cant": "The shipped tests only use interactions in which every vertex touches every flavor.", "anchors": ["src/submatrix_impl/invA.ipp: InvAMatrixFlavors::remove_rows_cols, InvAMatrix::remove_rows_cols", "src/submatrix.hpp: InvAMatrix::find_row_col", "src/submatrix_impl/common.ipp: finalize_update"]}
{"id": "C11", "title": "Growing a matrix: determinant ratio and inverse", "statement": "For an invertible A and any blocks B, C, D, the value returned when rows and columns are added equals det([[A,B],[C,D]])/det(A), and the in-place updated matrix is the inverse of the enlarged matrix, also when A is empty.", "quantifier": "every field, every size of A and of the added block, every content", "why_tests_cant": "Schur-complement identities must hold for all sizes and contents; tests use random matrices with tolerances.", "anchors": ["include/alps/fastupdate/detail/fastupdate_formula.ipp: compute_det_ratio_up, compute_inverse_matrix_up", "src/fastupdate_formula.h: compute_det_ratio_up, compute_inverse_matrix_up, compute_inverse_matrix_up2"]}
{"id": "C12", "title": "Shrinking a matrix: determinant ratio and inverse", "statement": "Removing the last M rows and columns of G: the returned value equals det(G')/det(G), and the in-place updated matrix is the inverse of G', also when everything is removed.", "quantifier": "every field, all sizes, every invertible G whose reduced matrix is invertible", "why_tests_cant": "As for growing; in addition the edge case of an empty result must be included.", "anchors": ["include/alps/fastupdate/detail/fastupdate_formula.ipp: compute_det_ratio_down, compute_inverse_matrix_down", "src/fastupdate_formula.h: compute_det_ratio_down, compute_inverse_matrix_down"]}
{"id": "C13", "title": "Removing arbitrary rows and columns: sign included", "statement": "For ascending lists of removed rows and removed columns of equal length, the value returned by the row/column removal equals det(G')/det(G), where G' is G with those rows and columns deleted in place (order of the others kept).", "quantifier": "every size and every pair of ascending position lists", "why_tests_cant": "The sign depends on all positions jointly (complementary minors); exhaustive tests are impossible.", "anchors": ["include/alps/fastupdate/detail/fastupdate_formula.ipp: compute_det_ratio_down(num, rows, cols, invG)"]}
{"id": "C14", "title": "Swap-to-the-end moves exactly the chosen positions", "statement": "Exchanging, for an ascending list of distinct positions, the i-th from the last chosen position with the i-th slot from the end brings exactly the chosen elements into the last slots in their original relative order, and keeps exactly the unchosen ones in front.", "quantifier": "every length and every ascending position list", "why_tests_cant": "The chosen positions may overlap the target slots in any pattern.", "anchors": ["src/fastupdate_formula.h: compute_inverse_matrix_down", "src/submatrix_impl/invA.ipp: remove_rows_cols", "include/alps/fastupdate/detail/fastupdate_formula.ipp: compute_inverse_matrix_down"]}
{"id": "C15", "title": "Replacing rows and columns: determinant ratio and inverse", "statement": "Replacing the trailing block of rows and columns of G by new ones of a possibly different number: the returned value is det(G_new)/det(G) whenever the helper's intermediate block is invertible, and the updated matrix is the inverse of G_new.", "quantifier": "every field, all sizes N, M_old, M_new, all contents satisfying the stated invertibility", "why_tests_cant": "Block identities for all sizes; singular intermediate blocks are measure zero for random tests.", "anchors": ["include/alps/fastupdate/detail/fastupdate_formula.ipp: ReplaceHelper", "src/fastupdate_formula.h: compute_det_ratio_replace_rows_cols, compute_inverse_matrix_replace_rows_cols"]}
{"id": "C16", "title": "Replacing one row or one column", "statement": "Replacing one row (or one column) of G: the returned value is det(G_new)/det(G) and the updated matrix is the inverse of G_new.", "quantifier": "every field, every size, every row/column position and content with non-zero ratio", "why_tests_cant": "Sherman-Morrison identities for all sizes.", "anchors": ["include/alps/fastupdate/detail/fastupdate_formula.ipp: compute_det_ratio_relace_last_row, compute_inverse_matrix_replace_last_row and _col versions", "src/fastupdate_formula.h: compute_det_ratio_replace_row, compute_imverse_matrix_replace_row"]}
{"id": "C17", "title": "Changing selected diagonal elements", "statement": "Changing a set of diagonal elements of A: the returned value is det(A_new)/det(A) and the updated matrix is the inverse of A_new.", "quantifier": "every field, every size, every set of positions and differences", "why_tests_cant": "Woodbury identity for all position sets.", "anchors": ["src/fastupdate_formula.h: compute_det_ratio_replace_diaognal_elements, compute_inverse_matrix_replace_diaognal_elements"]}
{"id": "C18", "title": "Overflow-safe determinant and inverse are the determinant and the inverse", "statement": "The scaled determinant equals the determinant and the scaled inverse equals the inverse for every non-zero matrix.", "quantifier": "every size and every content (including non-invertible matrices for the determinant)", "why_tests_cant": "Scaling exponents depend on the size.", "anchors": ["include/alps/fastupdate/detail/util.hpp: safe_determinant, safe_inverse", "include/alps/fastupdate/resizable_matrix.hpp: safe_determinant"]}
{"id": "C19", "title": "Resizing keeps every common element and never outgrows its buffer", "statement": "After any sequence of resizes, element writes, row/column swaps and removals, the logical size never exceeds the allocated buffer, and a size-preserving resize keeps every element that lies inside both the old and the new logical size.", "quantifier": "every sequence of operations of any length and sizes", "why_tests_cant": "Buffer growth depends on the history.", "anchors": ["include/alps/fastupdate/resizable_matrix.hpp: conservative_resize, destructive_resize, remove_row_col_last, swap_row, swap_col, invert"]}
{"id": "C20", "title": "Sorting reports the parity of the permutation", "statement": "comb_sort terminates for every strict weak order and every input, leaves a sorted rearrangement of the input, and returns +1/-1 equal to the sign of a permutation that was applied.", "quantifier": "every list of any length and every comparison", "why_tests_cant": "Gap sequences depend on the length; parity errors cancel in pairs on small samples.", "anchors": ["include/alps/fastupdate/detail/util.hpp: comb_sort"]}
{"id": "C21", "title": "Permutation sign of distinct elements", "statement": "permutation() returns -1 to the number of inversions for every sequence of pairwise distinct elements; on a sequence with a repeated element it does not return.", "quantifier": "every list", "why_tests_cant": "Non-termination cannot be established by running.", "anchors": ["include/alps/fastupdate/detail/util.hpp: permutation"]}
{"id": "C22", "title": "Cluster labels are connected components", "statement": "After any sequence of connect calls and finalisation, two vertices have the same label exactly if they are linked by a chain of connect calls, and the labels are exactly 0..k-1 for k clusters.", "quantifier": "every number of vertices and every sequence of connect calls", "why_tests_cant": "Union-find path compression depends on call order.", "anchors": ["include/alps/fastupdate/detail/clustering.hpp: Clustering"]}
{"id": "C23", "title": "Site groups are connected components", "statement": "make_groups returns a partition of the sites in which sites connected by the given relation (directly or by a chain) share a group.", "quantifier": "every number of sites and every symmetric connectivity table", "why_tests_cant": "Needs all graphs; shipped tests use at most a few sites.", "anchors": ["src/green_function.h: make_groups"]}
{"id": "C24", "title": "Determinant matrix: ratios and determinant are exact over all histories", "statement": "Starting from any operator list with invertible matrix and after any sequence of valid insertions, removals, replacements (each accepted or rejected), the reported determinant ratio equals the ratio of the determinants of the Green-function matrices with creation and annihilation operators in time order, and the reported sign is the sign of the time ordering.", "quantifier": "all operator types, all Green functions, all histories of valid updates", "why_tests_cant": "The row/column order drifts with history and its parity is tracked separately; tests see random histories only.", "anchors": ["include/alps/fastupdate/determinant_matrix.hpp: DeterminantMatrix", "include/alps/fastupdate/detail/determinant_matrix*.ipp: try_update, perform_update, reject_update, add_new_operators, remove_last_operators, swap_cdagg_op, swap_c_op"]}
{"id": "C25", "title": "Determinant matrix: rejected updates restore the operator set", "statement": "Whatever update was tried, rejecting it leaves the set of operators and the time-ordered determinant as before the trial.", "quantifier": "every state and every trial, including trials reported as impossible (ratio 0)", "why_tests_cant": "Impossible trials are rare in random tests, and each of the update kinds has its own reject path.", "anchors": ["include/alps/fastupdate/detail/determinant_matrix*.ipp: reject_add, reject_remove, reject_remove_add, reject_update", "include/alps/fastupdate/detail/determinant_matrix_remove_add.ipp"]}
{"id": "C26", "title": "Determinant matrix: call protocol is enforced", "statement": "perform or reject without a pending trial, and a second trial while one is pending, raise logic_error and change nothing.", "quantifier": "every state and call", "why_tests_cant": "Requires all call histories.", "anchors": ["include/alps/fastupdate/determinant_matrix.hpp: check_state", "include/alps/fastupdate/detail/determinant_matrix*.ipp"]}
{"id": "C27", "title": "Partitioned determinant: operator sets stay in step", "statement": "In the partitioned determinant matrix, the global time-ordered operator sets are equal to the union of the sectors' operators after every accepted or rejected update.", "quantifier": "every history of updates, including impossible ones", "why_tests_cant": "Needs all histories.", "anchors": ["include/alps/fastupdate/determinant_matrix_partitioned.hpp", "include/alps/fastupdate/detail/determinant_matrix_partitioned.ipp: try_update, perform_update, reject_update"]}
{"id": "C28", "title": "On-site interaction table", "statement": "The on-site interaction constructor yields one vertex per physical site, numbered consecutively, each coupling the two spin flavors (or the two spin-orbital sites) of that site with two auxiliary fields whose alpha values are exchanged between the spins; any flavor count other than 1 or 2 is refused.", "quantifier": "every number of sites, every U and alpha shift", "why_tests_cant": "Holds for every number of sites.", "anchors": ["src/U_matrix.h: general_U_matrix::set_onsite_U, find_non_density_vertices"]}
{"id": "C29", "title": "Interaction file reader refuses out-of-range indices", "statement": "Reading an interaction file either fails or yields vertices whose sites and flavors are all in range and whose numbering is consecutive, in file order; every vertex is classified as exactly one of density and non-density type.", "quantifier": "every file content", "why_tests_cant": "Malformed inputs are unbounded.", "anchors": ["src/U_matrix.h: load_vertex_from_file, find_non_density_vertices, vertex_definition"]}
{"id": "C30", "title": "Configuration dump and load are inverse", "statement": "Loading what was dumped restores every vertex's type, auxiliary field and time in the same order.", "quantifier": "every configuration without non-interacting vertices, every interaction table", "why_tests_cant": "All configurations of all sizes.", "anchors": ["src/U_matrix.h: load_config, dump, ItimeVertexContainer"]}
{"id": "C31", "title": "Equal-time vertices are refused", "statement": "Inserting a vertex at an imaginary time already occupied raises an error and leaves the container unchanged.", "quantifier": "every container and vertex", "why_tests_cant": "Random times practically never collide in tests.", "anchors": ["src/U_matrix.h: ItimeVertexContainer::push_back"]}
{"id": "C32", "title": "Random selection without repetition", "statement": "pickup_a_few_numbers(N,n) returns n pairwise distinct numbers in 0..N-1 for every random stream on which it returns; it returns on every stream that keeps producing every number, if n<=N; it never returns if n>N.", "quantifier": "every N, n and every infinite random stream in [0,1)", "why_tests_cant": "Quantifies over infinite streams and non-termination.", "anchors": ["src/util.h: pickup_a_few_numbers"]}
{"id": "C33", "title": "Folding times into the period", "statement": "mymod(x,beta) differs from x by an integer multiple of beta and lies in [0,beta] - in [0,beta) for x>=0 and in (0,beta] for x<0.", "quantifier": "every real x and every beta>0", "why_tests_cant": "Boundary values (exact multiples) are measure zero.", "anchors": ["src/util.h: mymod", "src/U_matrix.h: generate_valid_vertex_pair2", "src/update_manager.hpp: do_shift_update"]}
{"id": "C34", "title": "Pair-distance distribution is a proper, bounded density", "statement": "The symmetric exponential distribution is normalised on [0,beta], symmetric under tau -> beta-tau, maximal at 0 (so rejection sampling with that bound is valid), and its two prefactors satisfy coeff*coeffX*beta = 1.", "quantifier": "every a different from 0, b>=0 with positive normalisation, beta>0", "why_tests_cant": "Normalisation and bounds over a continuum.", "anchors": ["src/update_manager.hpp: SymmExpDist", "src/util.h: gen_rand_rejection_method"]}
{"id": "C35", "title": "Window sampling returns times inside the window", "statement": "A random time drawn for the time window is in [0,beta] and accepted by the window's own membership test, also when the window wraps around beta.", "quantifier": "every beta, window start and width, every random number in [0,1)", "why_tests_cant": "Wrap-around boundaries over a continuum.", "anchors": ["src/U_matrix.h: non_density_type_in_window"]}
{"id": "C36", "title": "Valid pairs for double-vertex updates", "statement": "The pair picked for removal consists of two different interacting vertices of the requested types, drawn with probability proportional to the pair weight; the normalisation reported is the sum over all such pairs; with no such pair, (-1,-1) is returned.", "quantifier": "every configuration, type pair and random number", "why_tests_cant": "Cumulative selection boundaries over all configurations.", "anchors": ["src/U_matrix.h: pick_up_valid_vertex_pair2"]}
{"id": "C37", "title": "Insertion and removal satisfy detailed balance", "statement": "The correction factors used for inserting and removing a vertex (or a pair of vertices) are exact reciprocals on the two ends of the same transition, and together with the proposal probabilities and the acceptance test they make the Markov step reversible with respect to the Monte Carlo weight.", "quantifier": "every configuration, inserted vertex, beta, number of vertex types and current order", "why_tests_cant": "A wrong factor biases averages by less than statistical noise of any finite test for some order.", "anchors": ["src/update_manager.hpp: acc_rate_corr_insertion, pick_up_vertices_to_be_removed, insertion_step, removal_step"]}
{"id": "C38", "title": "Perturbation order never exceeds its maximum", "statement": "Starting at or below max_order, no sequence of insertion/removal, spin-flip, shift updates brings the number of interacting vertices above max_order.", "quantifier": "every random stream and every number of steps", "why_tests_cant": "Long-run reachability.", "anchors": ["src/update_manager.hpp: do_ins_rem_update, insertion_step, removal_step, do_spin_flip_update, do_shift_update"]}
{"id": "C39", "title": "Spin-flip and shift updates preserve what they must", "statement": "Spin-flip updates change only auxiliary fields (to a different valid value); shift updates change only vertex times; neither changes the number, the types or the order-independent multiset of remaining attributes.", "quantifier": "every configuration and random stream", "why_tests_cant": "All configurations and streams.", "anchors": ["src/update_manager.hpp: do_spin_flip_update, spin_flip_step, do_shift_update"]}
{"id": "C40", "title": "Acceptance statistics count accepted moves", "statement": "The per-order acceptance histogram counts a proposed insertion or removal as accepted exactly if it was accepted.", "quantifier": "every random stream and weight ratio", "why_tests_cant": "The failing case (weight ratio exactly 1) is measure zero.", "anchors": ["src/update_manager.hpp: do_ins_rem_update, insertion_step, removal_step", "src/update_statistics.h: acc_rate_statistics"]}
{"id": "C41", "title": "Accepted global updates take effect", "statement": "When a global update is accepted, the solver's configuration afterwards is the transformed configuration; the set of global moves contains with every move its inverse.", "quantifier": "every configuration and every accepted global move", "why_tests_cant": "An update without effect leaves all averages plausible.", "anchors": ["src/update_manager.hpp: global_updates, global_update_impl, DoTransform, constructor (GLOBAL_UPDATES)"]}
{"id": "C42", "title": "Bare Green function is antiperiodic and time ordered", "statement": "Evaluating the bare Green function for a pair of operators reduces any time difference to [0,beta) with one sign change per period, for equal times uses G(+0) exactly if the annihilator is ordered after the creator and -G(beta) otherwise, and always terminates for beta>0.", "quantifier": "every pair of times, every beta>0", "why_tests_cant": "Arbitrary real time differences and boundaries.", "anchors": ["src/green_function.h: operator()(annihilator, creator), operator()(dt,...), interpolate"]}
{"id": "C43", "title": "Interpolation uses only stored data", "statement": "For every reduced time the interpolation index stays within the stored table and the two neighbouring grid points enclose the time.", "quantifier": "every table size of at least two points and every time in [0,beta]", "why_tests_cant": "The right boundary is measure zero.", "anchors": ["src/green_function.h: interpolate"]}
{"id": "C44", "title": "Cubic spline interpolates smoothly", "statement": "For at least three strictly increasing abscissae the spline passes through every data point, has continuous first and second derivative at every interior point, and satisfies the requested boundary condition on either side; the internal linear solve never divides by zero.", "quantifier": "every number of points n>=3, every strictly increasing x, every y", "why_tests_cant": "Existence of pivots and continuity for every size requires induction.", "anchors": ["src/spline.h: spline::set_points, operator(), band_matrix::lu_decompose, l_solve, r_solve, deriv"]}
{"id": "C45", "title": "Legendre recursion yields the Legendre polynomials", "statement": "The values computed for order l at x are the Legendre polynomials P_l(x); the scalar and the array version agree.", "quantifier": "every order and every x", "why_tests_cant": "All orders.", "anchors": ["src/legendre.h: legendre_transformer::compute_legendre"]}
{"id": "C46", "title": "Optimised and reference self-energy estimators agree", "statement": "The optimised accumulation of the Legendre self-energy estimator adds exactly the same amount to every entry as the straightforward one.", "quantifier": "every configuration, shift list, number of Legendre coefficients", "why_tests_cant": "Loop reordering must be exact for all sizes.", "anchors": ["src/measurement.ipp: compute_Sl, compute_Sl_optimized"]}
{"id": "C47", "title": "Binned self-energy estimator stays inside its bins", "statement": "For operator times in [0,beta] and random shifts in [0,beta) the bin index of the binned estimator is a valid index and the shifted time carries a minus sign exactly if it wrapped around beta.", "quantifier": "every time, shift and number of bins", "why_tests_cant": "Bin boundaries over a continuum.", "anchors": ["src/measurement.ipp: compute_Stau"]}
{"id": "C48", "title": "Density correlation layout is read back as it was written", "statement": "The flattened density-density array is read back in post-processing with the same (flavor, site, flavor, site) for every entry, and the diagonal entry equals the density.", "quantifier": "every number of flavors and sites", "why_tests_cant": "All sizes.", "anchors": ["src/measurement.ipp: measure_densities", "src/postprocess.hpp: ni_nj output"]}
{"id": "C49", "title": "Histograms account for every sample", "statement": "Adding a sample to an initialised scalar histogram counts it in exactly one bin exactly if it lies in [0,max); rebinning by an integer factor preserves the content of every complete new bin; perturbation-order histograms ignore out-of-range orders, report the most frequent and the highest order and the largest count, and are flat exactly if the mean exceeds four fifths of every count.", "quantifier": "every sample sequence and bin number", "why_tests_cant": "All sequences.", "anchors": ["src/update_statistics.h: scalar_histogram, rebin", "src/interaction_expansion.hpp: simple_hist/histogram"]}
{"id": "C50", "title": "Proposal rates stay a probability distribution", "statement": "After learning is finished the proposal rates are positive and sum to one, and finishing twice is refused.", "quantifier": "every learning history", "why_tests_cant": "All histories.", "anchors": ["src/update_statistics.h: update_proposer"]}
{"id": "C51", "title": "Measurement only after thermalisation, preparation exactly once", "statement": "No measurement is recorded before the thermalisation steps are completed; the preparation for measurement is done exactly once, before the first recorded measurement; the completed fraction is 0 before thermalisation and grows monotonically afterwards.", "quantifier": "every number of steps, measurement periods and call histories", "why_tests_cant": "All histories.", "anchors": ["src/interaction_expansion.ipp: update, measure, is_thermalized, fraction_completed, prepare_for_measurement"]}
{"id": "C52", "title": "Parallel run loop ends on all processes together", "statement": "All processes leave the run loop after the same number of collective reductions, so no process waits forever for a reduction that another will never enter; the loop ends as soon as the summed completed fraction reaches one or one process is asked to stop.", "quantifier": "every number of processes and every schedule of checks, progress and stop requests", "why_tests_cant": "Schedules are unbounded.", "anchors": ["src/interaction_expansion.hpp: mcmpiadapter::run"]}
{"id": "C53", "title": "Monte Carlo updates never fail and report the exact weight ratio", "statement": "Started from a valid configuration of non-zero weight, no sequence of insertion/removal, spin-flip and shift updates raises an error or leaves defined behaviour; every update returns the weight of the configuration after it divided by the weight before, and afterwards the stored inverse matrices and weights are those of the configuration.", "quantifier": "every interaction table with density-type vertices, every bare Green function, every random stream whose numbers lie in [0,1), every number of updates", "why_tests_cant": "Reachability over all random streams; errors that need a rare sequence of accepted and rejected moves.", "anchors": ["src/update_manager.hpp: do_ins_rem_update, do_spin_flip_update, do_shift_update", "src/submatrix_impl/common.ipp, gamma.ipp: init_update, try_insert, try_removal, try_spin_flip, finalize_update"]}
{"id": "C54", "title": "Global updates leave the Monte Carlo weight stationary", "statement": "Applying one global move (a relabelling of the vertex types) with its acceptance test leaves the distribution proportional to the modulus of the weight unchanged.", "quantifier": "every interaction table, configuration and global move that permutes the vertex types", "why_tests_cant": "A move that is not its own inverse biases averages without any error.", "anchors": ["src/update_manager.hpp: global_updates, global_update_impl, constructor (GLOBAL_UPDATES)"]}
{"id": "C55", "title": "The run loop reports whether the run was stopped", "statement": "On every process the run loop returns true exactly if the requested number of steps was completed, and false if the run was ended by a stop request.", "quantifier": "every number of processes and every schedule of stop requests", "why_tests_cant": "Needs a stop request on a strict subset of the processes.", "anchors": ["src/interaction_expansion.hpp: mcmpiadapter::run"]}
{"id": "C56", "title": "The reader of the bare Green function accepts exactly what it can use", "statement": "Reading a bare Green function either throws runtime_error or yields a function that takes the value stored in the file at every grid point for every flavour and pair of sites, is a natural cubic spline in between, and is Hermitian to 1e-8 at 0, beta/2 and beta; files whose sizes, beta, completeness or line order do not agree with the request are rejected, and complete Hermitian files are accepted.", "quantifier": "every file, every beta>0, every number of flavours, sites and grid points", "why_tests_cant": "All table sizes, every position of the first wrong line.", "anchors": ["src/green_function.h: read_itime_data, interpolate"]}
{"id": "C57", "title": "Measured density correlations obey Wick's theorem", "statement": "For every configuration, the values recorded by one density measurement are the sign-weighted densities and, for every pair of flavours and sites, the sign-weighted Wick value of <n_i n_j> built from the one-body density matrix of that configuration (product of densities, minus the exchange term between equal flavours, plus the delta term on the diagonal).", "quantifier": "every configuration, every number of flavours and sites, real or complex Green function and sign, every measurement time", "why_tests_cant": "All configurations; complex off-diagonal density matrices never occur in the test models.", "anchors": ["src/measurement.ipp: measure_densities"]}
{"id": "C58", "title": "Binned self-energy gives the Legendre coefficients with times moved to bin centres", "statement": "The Legendre coefficients computed after the run from the binned self-energy estimator are exactly those the direct Legendre estimator would give if every time difference were moved to the centre of its bin, summed over any list of measurements and divided by the sign.", "quantifier": "every list of measurements, every number of bins, Legendre polynomials, flavours and sites", "why_tests_cant": "All configurations, sizes and bins.", "anchors": ["src/measurement.ipp: compute_Stau", "src/postprocess.hpp: evaluate_selfenergy_measurement_binning"]}
{"id": "C59", "title": "Truncated interaction files are refused", "statement": "If an interaction file announces more terms than it contains, reading it fails; no term is returned that is not in the file.", "quantifier": "every file", "why_tests_cant": "All truncation points of all files.", "anchors": ["src/U_matrix.h: load_vertex_from_file"]}
{"id": "C60", "title": "Partitioned determinant: exact full determinants", "statement": "The determinant matrix that is split into sectors of connected flavors reports, for every trial, the ratio of the full time-ordered determinants (0 if a sector would be left with unequal numbers of operators); after every accepted or rejected trial compute_determinant is the full time-ordered determinant, with the sign that comes from interleaving the sectors in time, and compute_inverse_matrix is the inverse of the full Green-function matrix in the reported operator order. Rebuilding the inverses changes none of this.", "quantifier": "every symmetric connectivity of the flavors, every Green function that vanishes between unconnected flavors, every history of accepted and rejected trials that each sector can handle exactly", "why_tests_cant": "Signs of all interleavings of all sectors over all histories.", "anchors": ["include/alps/fastupdate/determinant_matrix_partitioned.hpp: compute_determinant, compute_inverse_matrix, rebuild_inverse_matrix", "include/alps/fastupdate/detail/determinant_matrix_partitioned.ipp: init, try_update, perform_update, reject_update, erase_and_compute_perm_sign_change, insert_and_compute_perm_sign_change"]}
{"id": "C61", "title": "Frequencies are the Fourier transform of the Legendre expansion", "statement": "The self-energy times Green function written for Matsubara frequency n is the integral over [0, beta] of exp(i omega_n tau) S(tau), omega_n = (2n+1) pi / beta, where S is the function of time whose Legendre coefficients are the ones computed from the bins; each element of the transformation matrix is the Fourier coefficient of one normalised Legendre polynomial, for every beta.", "quantifier": "all numbers of flavors, sites, bins, frequencies and Legendre coefficients (at least one), every beta > 0, all data", "why_tests_cant": "The identity between the Fourier transform of Legendre polynomials and spherical Bessel functions for all orders and frequencies, with sign and power of i, is not a finite statement.", "anchors": ["src/legendre.h: LegendreTransformer::LegendreTransformer, Tnl", "src/postprocess.hpp: evaluate_selfenergy_measurement_binning"]}
{"id": "C62", "title": "Updates return with probability one", "statement": "If the random numbers are independent and uniform in [0,1), then with probability one every sequence of updates returns, although the loops that draw until a condition holds have no bound, and the object it leaves is exact for its vertex list.", "quantifier": "every usable start, every interaction whose terms touch every flavor, every finite sequence of insertion/removal, shift, spin-flip and recompute calls", "why_tests_cant": "Almost sure termination is a statement about all streams but a null set; a test runs a few streams.", "anchors": ["src/update_manager.hpp: VertexUpdateManager::do_ins_rem_update, do_shift_update, do_spin_flip_update, spin_flip_step", "src/util.h: pickup_a_few_numbers"]}
{"id": "C63", "title": "Spin-flip updates leave the distribution of the auxiliary fields unchanged", "statement": "Spin-flip updates are in detailed balance with the modulus of the weight: one attempt at a vertex goes from x to y, weighted with the density of x, as often as from y to x; and if the states of the auxiliary fields of a fixed set of vertices are distributed with probability proportional to the modulus of the weight, they are distributed in the same way after any number of spin-flip updates, each of which selects several vertices at random and tries them one after the other.", "quantifier": "every interaction whose terms touch every flavor, every set of vertices, every number of updates per batch, every number of batches, every object the program can hold, every event on configurations", "why_tests_cant": "An identity between probabilities over infinite streams of random numbers for all configurations.", "anchors": ["src/update_manager.hpp: VertexUpdateManager::spin_flip_step, do_spin_flip_update", "src/util.h: pickup_a_few_numbers"]}
{"id": "C64", "title": "The updates leave the ensemble of configurations with continuous times unchanged", "statement": "Draw a configuration with at most max_order vertices from the normalised ensemble: probability proportional to the modulus of the weight, with 1/n! for the order of the n vertices, a sum over their types and auxiliary-field states and an integral over their times in [0, beta). Let any sequence of updates follow (insertions and removals, time shifts, spin flips, recomputations) with independent random numbers uniform in [0,1). With probability one the updates return, and the configuration is distributed as it was before. The normalisation is finite and not zero, and every table of the bare Green function meets what is assumed of it.", "quantifier": "every interaction whose terms touch every flavor, every bounded measurable bare Green function, every beta > 0, every max_order, every number of insertion/removal attempts per batch, every step size, every finite sequence of updates, every measurable set of configurations that does not depend on the storage order", "why_tests_cant": "A statement about a measure on configurations with continuous times and about all streams of random numbers; a simulation can only estimate a few of its consequences with statistical errors.", "anchors": ["src/update_manager.hpp: VertexUpdateManager::do_ins_rem_update, do_shift_update, do_spin_flip_update", "src/submatrix.hpp: SubmatrixUpdate", "src/green_function.h: operator()"]}
{"id": "C65", "title": "Recorded acceptance rates belong to the attempts since the last record", "statement": "At every measurement after the thermalisation the pair recorded as VertexInsertionRemoval_Acceptance_Rate is the fraction of accepted and of rejected moves among the insertions and removals attempted since the counters were last reset (by the previous measurement or by prepare_for_measurement_steps); the two numbers are in [0,1] and add up to 1. The pair recorded as VertexShift_Acceptance_Rate is the same for the shifts of vertices.", "quantifier": "every interaction, every sequence of updates between two measurements, every stream of random numbers, every number of attempts per batch", "why_tests_cant": "The counters are changed in several branches of the update and reset in two places; whether every attempt is counted exactly once is a statement about all executions.", "anchors": ["src/update_manager.hpp: VertexUpdateManager::measure_observables, prepare_for_measurement_steps", "src/update_statistics.h: AcceptanceRate", "src/interaction_expansion.ipp: measure"]}
{"id": "C66", "title": "A measurement records the values of the present configuration", "statement": "After any sequence of updates a measurement is defined and everything it records is a function of the configuration then present: Sign is the real part of the phase of its weight; Stau is, for every flavor, pair of sites and time bin, the average over the random time shifts of the ratios of determinants with one creation operator replaced; the densities are the sign times the ratio of the determinants with and without one more pair of operators; the density correlations are the sign times Wick's formula of these (the ratio of determinants with two more pairs); PertOrder is the number of operator pairs of each flavor and PerturbationOrderVertex the number of vertices of each type. It does not depend on the storage order or on the way the configuration was reached, and reads num_samples + 1 random numbers.", "quantifier": "every interaction whose terms touch every flavor, every bare Green function, every usable starting configuration, every sequence of updates, every stream of random numbers in [0,1), every number of shifts and bins", "why_tests_cant": "The recorded numbers come from matrices kept up to date by fast updates over the whole run; that they are the ratios of determinants of the present configuration is a statement about all histories and all sizes.", "anchors": ["src/measurement.ipp: measure_observables, measure_Sl, compute_Sl, measure_densities", "src/submatrix.hpp: SubmatrixUpdate::compute_M"]}
{"id": "C67", "title": "Means of the recorded values are the sums of the expansion", "statement": "Draw the starting configuration from the ensemble, do any sequence of updates, then measure. The configuration measured and the random numbers used by the measurement are distributed like a fresh draw from the ensemble and independent uniform numbers. The mean of the recorded Sign is the sum of the real parts of all weights over the sum of their moduli. The mean of the recorded density is the sum over all configurations of the weight with one more pair of operators, averaged over its time, over the sum of the moduli; hence mean density over mean sign is the ratio of the two sums of the expansion, independent of the updates. The mean of the recorded self-energy in each time bin is the sum of the weights with one creation operator replaced, averaged over the time shift, over the sum of the moduli, for every number of shifts.", "quantifier": "every interaction whose terms touch every flavor, every measurable bounded bare Green function, every beta > 0, every maximal order, every sequence of updates, every bin, site and flavor", "why_tests_cant": "A test can only compare noisy averages of a finite run with a reference for one model; that the expectation is exactly the sum of the expansion, for all models and all sequences of updates, is a statement about a probability distribution on infinite streams.", "anchors": ["src/measurement.ipp: measure_observables, compute_Stau, measure_densities", "src/update_manager.hpp: do_ins_rem_update, do_shift_update, do_spin_flip_update", "src/interaction_expansion.ipp: update, measure"]}
{"id": "C68", "title": "Replacing a row together with a column", "statement": "compute_inverse_matrix_replace_row_col, given the inverse of G and a new row and column number m, returns det(new)/det(G), and leaves the inverse of the new matrix in its argument whenever the new matrix is invertible; likewise _row_col2 and _single_row_col when the matrix without row and column m is singular, _succesive for a list of rows and columns, and compute_det_ratio_replace_rows_cols_safe for the ratio. Asked for the ratio only, the argument is not changed.", "quantifier": "every size, every invertible matrix, every row and column, every m, every ascending list of rows and columns", "why_tests_cant": "The result depends on which branch is taken, on the position m and on the new diagonal element; random test matrices never have a singular remaining matrix, so the other branch and its missing term are never exercised.", "anchors": ["src/fastupdate_formula.h: compute_inverse_matrix_replace_row_col, compute_inverse_matrix_replace_row_col2, compute_inverse_matrix_replace_rows_cols_succesive, compute_inverse_matrix_replace_single_row_col, compute_det_ratio_replace_rows_cols_safe"]}
{"id": "C69", "title": "Placing rows and columns in a matrix", "statement": "replace_rows_cols_respect_ordering writes the new rows and columns, given in ascending order, at the chosen positions and changes no other element. replace_rows_cols changes the same positions only, takes the crossing block in ascending order and the other elements in the order in which the rows stand after moving the chosen ones to the end. generate_indices returns the remaining indices in ascending order whatever the output held before, and is undefined if an index is repeated or out of range.", "quantifier": "every size, every ascending list of positions, every content", "why_tests_cant": "That nothing else is changed and that the order is right is a statement about every element for every list of positions; a test compares a few matrices.", "anchors": ["src/fastupdate_formula.h: replace_rows_cols, generate_indices, replace_rows_cols_respect_ordering"]}
{"id": "C70", "title": "Rejection sampling draws from the distribution it is given", "statement": "gen_rand_rejection_method, given a distribution function with values between 0 and the bound on [0,beta) that is not zero almost everywhere, returns with probability one; the number returned has the density P(x)/\u222bP, and the random numbers not yet used are again independent and uniform whatever number was returned. If the function is zero the loop never ends. A bound that is too small is found by the assertion with at least the probability that one trial falls where the function exceeds it.", "quantifier": "every measurable distribution function, every bound, every beta, every event about the number returned and the rest of the random stream", "why_tests_cant": "The number of trials is unbounded and the law is a statement about the measure of all random streams; a histogram of samples can only make it plausible.", "anchors": ["src/util.h: gen_rand_rejection_method"]}
{"id": "C71", "title": "Law of a generated pair of vertices", "statement": "generate_valid_vertex_pair2 returns, for an ascending pair of types that are not of density type, two interacting vertices of these types with their ranks, states of theirs and times in [0,beta); the times have the density P(t2-t1 mod beta)/(beta \u222bP), the states are uniform, and times, states and the random numbers not yet used are independent. When the pair of types is drawn as well (gen_itime_vertices_insertion for two vertices), every pair in the list has the same probability. A density term makes it throw, a pair that is not ascending runs into the assertion.", "quantifier": "every table of terms, every pair of types, every distribution function, every measurable set of times, every pair of states, every continuation of the random stream", "why_tests_cant": "A joint law of continuous variables and an unbounded number of draws; the acceptance factor of the pair update is right only if this density is exactly the one it divides by.", "anchors": ["src/U_matrix.h: generate_valid_vertex_pair2", "src/update_manager.hpp: gen_itime_vertices_insertion"]}
{"id": "C72", "title": "The simulation forgets its start, unless it cannot leave it", "statement": "Repeat any fixed sequence of updates that contains insertions and removals. If from every configuration with weight some vertex can be removed at a bounded cost of weight, the law of the configuration converges to the normalised ensemble |weight|/Z from every starting object, and the distance falls at least geometrically in the number of repetitions, uniformly in the start. The condition cannot be dropped: if no single vertex has weight (alpha equal to the density, no delta shift), the program started from the empty configuration stays there for ever, with probability one, whatever the updates, although configurations of two vertices have positive weight.", "quantifier": "every model, every start reachable by the program, every symmetric measurable set of configurations, every number of repetitions, every content of uninitialised memory", "why_tests_cant": "A statement on the limit of laws over all random streams; a test sees one chain for a finite time.", "anchors": ["src/interaction_expansion.ipp: update", "src/update_manager.hpp: do_ins_rem_update", "src/submatrix_impl/common.ipp: vertex_insertion_removal_update"]}
{"id": "C73", "title": "Averages over one long simulation converge to the sums of the expansion", "statement": "Run the loop of the simulation (update, then measure) once, from any start. If from every configuration with weight some vertex can be removed at a bounded cost of weight, then with probability one every pass returns, every pass after the thermalisation records exactly one measurement, and the average of the recorded signs converges to the sum of the weights over the sum of their moduli; the probability that the average of n signs is off by eps or more is at most C/(n eps^2), C independent of the start, of n, of eps and of the thermalisation. For real weights bounded away from zero the averages of the densities and of the bins of the self-energy converge as well, and the ratio of averages that is printed converges to the ratio of the signed sums. The averages and the ratios are off by eps or more with a probability of at most C/(n eps^2).", "quantifier": "every model with real (sign: real or complex) weights, every start, every number of updates per turn, every measurement period and thermalisation, every content of uninitialised memory", "why_tests_cant": "A limit over infinitely many passes, with probability one over all random streams; a run of finite length can neither confirm the limit nor the rate.", "anchors": ["src/interaction_expansion.hpp: mcmpiadapter::run", "src/interaction_expansion.ipp: update, measure", "src/measurement.ipp: measure_observables"]}
{"id": "C74", "title": "The self-checks of a debug build accept exactly the right states and change nothing", "statement": "Built without NDEBUG, the object that maintains the matrices checks itself after every accepted or rejected trial, and its entry points carry extra assertions. For every sequence of calls that respects the rules no check fires and every call leaves exactly the object the release build leaves. sanity_check returns true on every state so reached; between batches it returns true if and only if the operator lists are those of the configuration, the weight is not zero and both stored signs are right up to 1E-5.", "quantifier": "every interaction, every start configuration, every admissible sequence of calls of any length, every content of uninitialised memory; for the converse every object between batches", "why_tests_cant": "A test sees that no assertion fires on the runs it makes; that none can fire, and that a passed check implies a right state, quantify over all states.", "anchors": ["src/submatrix_impl/common.ipp: sanity_check, perform_spin_flip, reject_spin_flip", "src/submatrix_impl/gamma.ipp: InvGammaMatrix::sanity_check, try_remove, try_add_remove", "src/submatrix_impl/invA.ipp: InvAMatrix::sanity_check, InvAMatrixFlavors::sanity_check, compute_M"]}
{"id": "C75", "title": "Determinants as sorted products, and their phases", "statement": "compute_determinant_as_product of both determinant matrices returns, after every history of trials, nonzero factors whose product is the determinant of the configuration ordered by time, sorted by modulus, one per pair of operators (one for an empty sector). lu_product returns as many factors as rows with product det, and is undefined for an empty matrix. phase_of_determinant is det/|det|, and zero for a singular matrix.", "quantifier": "every matrix and size, every decomposition with complete pivoting, every history of trials, every way of cutting flavors into sectors, every sorting function", "why_tests_cant": "The signs of the row and column permutations, of the matrix order and of the sectors must cancel for every configuration; a test sees a few configurations of one size.", "anchors": ["include/alps/fastupdate/detail/util.hpp: lu_product, lesser_by_abs", "include/alps/fastupdate/determinant_matrix.hpp: compute_determinant_as_product", "include/alps/fastupdate/determinant_matrix_partitioned.hpp: compute_determinant_as_product", "include/alps/fastupdate/resizable_matrix.hpp: phase_of_determinant"]}
{"id": "C76", "title": "What the program writes converges to the expansion", "statement": "With real weights bounded away from zero and a nonzero sum of weights: for almost every sequence of random numbers every number of passes returns, postprocess writes an archive once there are enough measurements, and as their number grows every number in it converges: Sign to the sum of weights over the sum of moduli, matrix_size to the mean sizes, SigmaG_tau, densities and ni_nj to the sums over all configurations of weights with inserted operators over the sum of the weights, SigmaG_legendre to the midpoint-rule Legendre coefficients of that SigmaG_tau and SigmaG_omega to the Fourier transform of the function with these coefficients.", "quantifier": "every model with a usable table of terms, every bounded measurable bare Green's function, every start, thermalisation, period, number of bins, coefficients and frequencies, every content of uninitialised memory, almost every sequence of random numbers", "why_tests_cant": "A finite run shows one estimate with a statistical error; that every entry has the right limit, with the right indices, is a statement about infinitely many passes.", "anchors": ["src/postprocess.hpp: postprocess, evaluate_selfenergy_measurement_binning, postprocess_densities", "src/interaction_expansion.ipp: update, measure", "src/measurement.ipp: measure_observables"]}
{"id": "C77", "title": "The self-energy written is right for complex weights too", "statement": "With real or complex weights bounded away from zero and a partition function with nonzero real part: for almost every sequence of random numbers every number of passes returns, postprocess writes an archive once there are enough measurements, and real and imaginary parts of SigmaG_tau, SigmaG_legendre and SigmaG_omega converge to the complex sums of the expansion divided by the real part of the partition function; if the partition function is real these are the expectation values. Sign converges to the real part of the partition function over the sum of the moduli.", "quantifier": "every model with a usable table of terms, real or complex, every bounded measurable bare Green's function, every start, thermalisation, period, number of bins, coefficients and frequencies, every content of uninitialised memory, almost every sequence of random numbers", "why_tests_cant": "With complex phases an error in the imaginary part of one estimator averages to something plausible; only the limit of infinitely many passes shows it, and the reference values are not known.", "anchors": ["src/measurement.ipp: measure_Sl, compute_Stau", "src/postprocess.hpp: evaluate_selfenergy_measurement_binning", "src/interaction_expansion.ipp: update, measure"]}
{"id": "C78", "title": "Every recorded quantity has its own observable and is read back under its name", "statement": "Creating the observables never meets a name already taken; every value measured goes to an existing observable of the right kind (number or vector); after any number of measurements every observable holds exactly the values of its quantity in order, the single-site observables stay empty and there are no others. What the post-processing writes when it looks the observables up by name is what it writes given the values themselves.", "quantifier": "every number of flavours and sites, every sequence of measurements", "why_tests_cant": "Two names can collide or differ between writer and reader only for particular numbers of flavours and sites (several digits); a test fixes them.", "anchors": ["src/measurement.ipp: initialize_observables, measure_observables, measure_Sl, measure_densities", "src/update_manager.hpp: create_observables, measure_observables", "src/postprocess.hpp: postprocess, evaluate_selfenergy_measurement_binning, evaluate_selfenergy_measurement_legendre, postprocess_densities"]}
{"id": "C79", "title": "The debug build of the solver runs the same Monte Carlo chain as the release build", "statement": "From any admissible initial configuration, for any parameters, updates and random numbers, the build with all internal checks compiled in goes through the same states and records the same values as the release build: none of its checks ever stops it. The same holds for reading the bare Green function and for every value interpolated from it.", "quantifier": "every interaction table, bare Green function, initial configuration, random stream, number of passes; every input file and time", "why_tests_cant": "A check that fires wrongly for a rare sequence of trials (as one does when the object is driven directly, C74) shows up only on that sequence; the tests run a few short chains.", "anchors": ["src/update_manager.hpp: do_ins_rem_update, do_shift_update, do_spin_flip_update", "src/submatrix_impl/common.ipp, invA.ipp, gamma.ipp: debug checks", "src/interaction_expansion.ipp: update, measure", "src/green_function.h: interpolate, read_itime_data"]}
{"id": "C80", "title": "From the parameters and input files to a solver that runs and converges", "statement": "Given usable parameters, a number U or a well-formed interaction file and a well-formed file with the bare Green function, the constructor of the solver succeeds: every parameter arrives where it is used, the terms are the on-site repulsions or those of the file in their order, the updates and measurements use the antiperiodic continuation of the natural spline through the values of the file. The solver then makes any number of passes with any random numbers without failing, counts its steps and records right, and with probability one everything written after the run converges to the sums of the expansion for these terms and this Green function. Input in which U and the interaction file are both or neither given, a file cannot be opened, the number of flavors, sites or beta does not agree, lines are missing or out of order, the measurement period is not positive or there is more than one proposal rate is refused with runtime_error. (With no Legendre polynomials, or fewer than three grid points, the construction is undefined.)", "quantifier": "every parameter set, interaction file, Green function file, initial configuration, random stream and number of passes; debug and release build", "why_tests_cant": "The tests construct the solver from two or three hand-written inputs; the theorem chains the readers, the constructor, every update and measurement and the post-processing for all of them.", "anchors": ["src/interaction_expansion.ipp: InteractionExpansion::InteractionExpansion", "src/update_manager.hpp: VertexUpdateManager::VertexUpdateManager", "src/U_matrix.h: general_U_matrix", "src/green_function.h: read_itime_data", "src/program_options.hpp: define_ctint_options", "src/interaction_expansion.hpp: mcmpiadapter::run"]}
{"id": "C81", "title": "The checks of the determinant matrices in a debug build only look, and never fail on correct use", "statement": "Built with asserts, DeterminantMatrix and DeterminantMatrixPartitioned run their sanity checks in every trial, rejection and acceptance. These checks change nothing: whenever the calls come back, the build without asserts returns the same ratios and leaves the same members, for every object and every sequence of calls. Over every history of valid trials no check fails, so that both builds give the same ratios and the same objects.", "quantifier": "every object, sequence of trials with decisions, operators, times, Green functions over fields, flavors and sectors", "why_tests_cant": "A test executes a few short histories in one of the two builds; a check that fails after a rare sequence (an emptied matrix, a repeated time) or that changes a member is only found by accident.", "anchors": ["include/alps/fastupdate/detail/determinant_matrix.ipp: sanity_check", "include/alps/fastupdate/detail/determinant_matrix_partitioned.ipp: sanity_check", "include/alps/fastupdate/determinant_matrix_partitioned.hpp: reconstruct_operator_list_in_actual_order", "include/alps/fastupdate/detail/util.hpp: comb_sort"]}
{"id": "C82", "title": "The quantum numbers of the vertices are the particles they add to separate groups of sites, they are conserved, and the pairs found with them are exactly the opposite ones", "statement": "make_quantum_numbers gives for each interaction term, flavor and group of connected sites the number of creators minus the number of annihilators. If connectedness is an equivalence and operator pairs between unconnected sites carry no auxiliary field, these numbers add up to zero over the vertices of every configuration with non-zero weight. find_valid_pair_multi_vertex_update lists exactly the pairs of different types, the smaller first, whose numbers are not zero and cancel, each once, and its flags say the same of all pairs. Hence a vertex with non-zero numbers cannot be added alone to a configuration of non-zero weight, and two of different types only if they are one of these pairs.", "quantifier": "every number of sites and flavors, interaction table, connectedness relation, Green function, configuration and pair of vertices", "why_tests_cant": "Multi-vertex updates are switched off, so no run executes this code; a test of a few tables would not see that the sites and the flavor are passed in the wrong order when all of them are below the number of flavors.", "anchors": ["src/green_function.h: make_quantum_numbers, is_zero", "src/U_matrix.h: find_valid_pair_multi_vertex_update", "src/update_manager.hpp 191-203"]}
{"id": "C83", "title": "Vertices selected by kind are of that kind, drawn uniformly, and pairs are drawn uniformly among the valid ones", "statement": "generate_itime_vertices returns the number of vertices asked for, interacting, with types, ranks and states of the interaction table, times in [0,beta] and accepted by the predicate; they are independent, with uniform type among the types of the kind, uniform state and uniform time; if no type is of the kind it returns none. generate_valid_vertex_pair draws one of the pairs uniformly and fails if it has a density term. pick_up_itime_vertices returns different positions of accepted vertices, every ordered choice with the same probability, or none if there are too few. pick_up_valid_vertex_pair reports the number of pairs of accepted vertices whose types are flagged and returns one of them, each with the same probability. count_valid_vertex_pair counts the same pairs.", "quantifier": "every predicate (all, density, non-density, non-density in a window), interaction table, list of vertices, table of flags, number of vertices and random stream", "why_tests_cant": "No code of this commit calls these functions; uniformity is a statement about all streams, and the write outside of a vector in count_valid_vertex_pair usually has no visible effect.", "anchors": ["src/U_matrix.h 475-727: all_type, density_type, non_density_type, non_density_type_in_window, generate_valid_vertex_pair, generate_itime_vertices, count_valid_vertex_pair, pick_up_valid_vertex_pair", "src/U_matrix.h 779-815: pick_up_itime_vertices"]}
{"id": "C84", "title": "The spread of vertices is the length of an arc of the imaginary-time circle that holds them, and does not depend on their order or on where the circle begins", "statement": "For times in [0,beta] compute_spread fails no assert and returns a number between 0 and beta that is the length of an arc with all the vertices, whose ends are vertices or the centre of the vertices. It does not depend on the order of the vertices nor on a common shift of all times around the circle. If the vertices lie within less than half of the circle it is the time between the first and the last of them.", "quantifier": "every number of vertices, every times in [0,beta], every shift and every beta > 0", "why_tests_cant": "Tests try a few sets of times; the case in which the centre vanishes and the result depends on the origin has measure zero.", "anchors": ["src/update_statistics.h 155-191: compute_spread"]}
{"id": "C85", "title": "The adaptive cutoff follows the samples of the flavours and stays within its bounds; counters count", "statement": "However samples are added, the histogram resets and the cutoff adapts, no call fails and the cutoff stays between the width of a bin and the largest position. The adapted cutoff of a histogram grows by the given factor if the mean in the last quarter of [0,cutoff) exceeds the given part of the largest mean of the four quarters, shrinks if it falls below, and is unchanged otherwise or if a quarter has fewer than 100 samples or all means are negative; for several flavours the largest is taken. The reported counts, sums and means are those of the samples since the last reset, flavour after flavour. Every counter of updates holds the number of its events.", "quantifier": "every sequence of calls, every samples, numbers of bins and flavours, ratios in [0,1] and factors >= 1", "why_tests_cant": "The sequences of calls and the positions of samples are unbounded.", "anchors": ["src/update_statistics.h 120-153: simple_update_statistcs", "src/update_statistics.h 267-318: get_mean, update_cutoff", "src/update_statistics.h 345-426: scalar_histogram_flavors"]}
{"id": "C86", "title": "Pairs of vertex types given by the user are added once to the pairs found", "statement": "The pairs for double-vertex updates are the pairs of types whose quantum numbers cancel, then those of update.double_vertex_update_pairs in their order; no pair occurs twice, in whatever order of its types, and the table of flags is the symmetric table of the pairs. A pair outside of the table of vertices is refused with an exception. Every pair that is taken can be inserted.", "quantifier": "every table of quantum numbers and every text", "why_tests_cant": "No test gives such a list.", "anchors": ["src/update_manager.hpp 203-220", "src/U_matrix.h 606-632: generate_valid_vertex_pair2"]}
{"id": "C87", "title": "Helpers: falling factorial, removal by position, deviation from the identity, order of operator times", "statement": "permutation(N,k) is the number of sequences of k of N things; remove_elements_from_vector keeps exactly the elements at the other positions in their order; is_identity is the largest deviation of an element from the identity and refuses matrices that are not square; the order of operator times is a strict total order by time, then small index, and agrees with equality.", "quantifier": "every argument", "why_tests_cant": "Tests try permutation(3,1) and permutation(3,2) only.", "anchors": ["src/util.h 49-93, 190-209", "src/operator.hpp 8-39"]}
{"id": "C88", "title": "The program on any number of processes writes one file, and what it writes converges to the expansion", "statement": "Start the program on any number of processes with usable parameters and files. With probability one, whatever the schedule of the processes and however the measurements are distributed over them: when the requested number of steps is completed all processes return, the first and only the first has written a file, it holds the parameters, the records of all processes (at least as many as the requested steps) and the results of the post-processing, and as the requested number of steps grows every number in it converges to the value the expansion defines (with complex weights: sign, sizes and self-energy). A run stopped before anything was recorded has no results to write.", "quantifier": "every number of processes, every schedule and numbers of passes, almost every sequences of random numbers of the processes, every usable input", "why_tests_cant": "Tests do not run the program; schedules of processes and random numbers are unbounded.", "anchors": ["src/main.hpp 11-53: run_simulation", "src/interaction_expansion.hpp 53-73: mcmpiadapter::run", "src/postprocess.hpp 195-227: postprocess"]}
{"id": "C89", "title": "However small the weights: results converge to the expansion if the weights vanish at most on sets of measure zero", "statement": "Started from the empty configuration, with no bound on the weights from below (their variance may be infinite): if the weights of the configurations with at most max_order vertices vanish at most on sets of measure zero then with probability one everything that is written converges to the value the expansion defines, on one process and on any number of them. For the sign it is enough that from almost every configuration with weight some vertex can be removed such that there is still weight. If configurations without weight have positive measure, averages of densities converge to the sum over the configurations with weight only, which can differ from the density of the expansion (a case with 1/2 instead of 3/4).", "quantifier": "every input with bounded measurable Green's functions, almost every sequence of random numbers, every length and schedule", "why_tests_cant": "A statement about limits with probability one; rare configurations of small weight do not appear in runs of finite length.", "anchors": ["src/interaction_expansion.hpp: InteractionExpansion", "src/interaction_expansion.ipp 88-170: update, measure", "src/measurement.ipp 74: measure_observables", "src/main.hpp 11-53: run_simulation"]}
{"id": "C90", "title": "On-site repulsion at particle-hole symmetry has no sign problem", "statement": "With two flavors, a positive number model.U and a file with the bare Green's function whose values have particle-hole symmetry on the grid of times, the function the updates use has the symmetry at all times, and the weight of every configuration without two equal vertices at the same time is a power of U times the square of a determinant, hence not negative. Started without a configuration file, with probability one every measurement of every process has sign 1, the program returns as soon as one measurement was made, and the mean sign written to the archive is exactly 1. The sum of all weights is at least 1, so the division by the mean sign needs no assumption for the results to converge.", "quantifier": "every number of sites, every U > 0, every file with the symmetry, almost every sequence of random numbers, every number of processes and every number of passes on each", "why_tests_cant": "A run shows the signs of the configurations it visits; that no run of any length on any symmetric input meets a negative one is a statement about all of them.", "anchors": ["src/U_matrix.h: general_U_matrix(ns, nf, U, alpha)", "src/green_function.h: init, operator()", "src/spline.h: set_points", "src/submatrix.hpp: sign", "src/measurement.ipp 74: measure_observables", "src/postprocess.hpp 195-227", "src/main.hpp 11-53"]}
{"id": "C91", "title": "Levels coupled by interactions between densities are solved exactly", "statement": "Without hopping (every level has its own bare Green's function, that of a free level) and with interaction terms that are products of densities of different levels, the weight of every configuration without equal times is the thermal average over the occupied levels of the product of the terms of its vertices, whatever the times. The sum over all configurations with at most M vertices is therefore, state by state, the exponential series of -beta times the interaction energy to order M; as M grows it converges to the ratio of the exact partition functions with and without interaction, and the mean number of vertices to -beta times the exact thermal average of the interaction energy. The densities and products of two densities are likewise the averages of the occupation numbers over the states, with the series to order M, up to the time difference of 1e-10 beta used for equal times, whose effect is exp(1e-10 beta e) - 1 times the Fermi function. For terms made from model.U the interaction energy is the sum over the sites of U (n_up - 1/2)(n_down - 1/2) up to the constant that comes with the shift of the fields, and for U > 0 all weights are positive. A file with -1/2 on the diagonal and 0 elsewhere gives exactly the levels at zero energy. For such a run of the program (Hubbard atoms) without configuration file: for every tolerance there is an order such that whenever max_order allows it, with probability one, as the requested number of steps grows, the mean sign in the archive converges to 1, the densities to 1/2, and the mean matrix sizes come and stay within the tolerance of -beta times the exact average of the interaction energy, the products of two densities within the tolerance of their exact averages (for one site the double occupancy is 1/(2(1+exp(beta U/2)))).", "quantifier": "every number of sites and flavors, all level energies, every table of density terms of any rank and number of field states, every temperature; for the program every U > 0, every number of processes, almost every sequence of random numbers", "why_tests_cant": "A run compares one noisy number at one U and temperature with the known answer; that the sum of the series the code samples is the exact answer for all of them is an identity over all configurations of all orders.", "anchors": ["src/operator.hpp", "src/U_matrix.h: general_U_matrix", "src/green_function.h: init, operator()", "src/submatrix_impl", "src/measurement.ipp: measure_observables, measure_densities", "src/postprocess.hpp 195-227", "src/main.hpp 11-53"]}
{"id": "C92", "title": "Incomplete files with the bare Green's function are refused", "statement": "The file is read word by word. However its numbers are written, a file with at least one line of data gives exactly what its lines say, and words after the last line needed do not matter. A file that ends early, at any word, or that holds a word that is not a number before all values are read, is refused with runtime_error; no value is taken that is not in the file.", "quantifier": "every file, every position at which it is cut or garbled, every number of flavors, sites and grid points", "why_tests_cant": "There are as many incomplete files as positions in all files; a test cuts one file at one place, and the place where the cut is not noticed is the last line.", "anchors": ["src/green_function.h 28-94: read_itime_data"]}
{"id": "C93", "title": "The file of global updates is read as written or refused", "statement": "The file GLOBAL_UPDATES is read word by word. A file that gives for every move and every vertex type its destination yields exactly these moves and their inverses, each once, whatever follows in the file. A file that ends early, or that holds a word that is not a number before all moves are read, is refused with runtime_error; no destination is taken that is not in the file, and no variable is used before it has a value.", "quantifier": "every file, every position at which it is cut or garbled, every number of moves and vertex types", "why_tests_cant": "There are as many incomplete files as positions in all files; the one place where a cut is not noticed is the last word, and the use of a variable without a value can look like anything.", "anchors": ["src/update_manager.hpp 235-274: constructor, GLOBAL_UPDATES"]}
{"id": "C94", "title": "A Hermitian Hamiltonian is normalised by the right number", "statement": "The simulation keeps only the real part of the complex phase, so its averages are divided by the real part of the partition function. If the interaction and the bare Green's function are Hermitian (every term has its conjugate, with conjugate coupling and fields, in the table; the values of the file for the two orders of the sites are conjugate), the partition function of the expansion, cut at any number of vertices, is real although the single weights are not; therefore the self-energy that is written tends to the sums of the expansion divided by the partition function itself. The tables made from model.U are Hermitian.", "quantifier": "every Hermitian table of terms, every Hermitian bare Green's function or file, every temperature, every maximal number of vertices, any number of processes, almost every sequence of random numbers", "why_tests_cant": "A complex partition function would be seen only as a wrong common factor in the results, of unknown size; no finite sample of configurations shows that the imaginary parts cancel.", "anchors": ["src/measurement.ipp: measure_Sl, compute_Stau", "src/measurement.ipp 77-79: measure_observables, Sign", "src/green_function.h: read_itime_data", "src/U_matrix.h: set_onsite_U"]}
{"id": "C95", "title": "The weight of a configuration is a thermal average", "statement": "Let fermions of any number of flavors hop between any number of sites with a Hermitian Hamiltonian H, and let the bare Green's function be that of H. Then the weight the program gives to a configuration of vertices at different times (determinants of all flavors times the couplings) is the thermal average, tr(exp(-\u03b2H) X)/tr exp(-\u03b2H), of the product X of the vertices in the order of their times, each vertex being -U \u220f(c\u2020c - \u03b1) at its imaginary time. It does not depend on the order in which the configuration lists the vertices.", "quantifier": "every number of flavors and sites, every Hermitian hopping, every table of terms of any rank, every configuration of any size with different times, real and complex amplitudes", "why_tests_cant": "A wrong sign or a transposed pair in the matrix of one flavor changes the results of interacting models only, where no other number is known; tests compare a few sizes.", "anchors": ["src/submatrix_impl/invA.ipp: InvAMatrix::recompute_matrix", "src/submatrix_impl/common.ipp: recompute_matrix, determinant and sign", "src/U_matrix.h: vertex_definition, itime_vertex", "src/operator.hpp: creator, annihilator, operator_time", "src/green_function.h: g0_spline"]}
{"id": "C96", "title": "The expansion is exact for fermions that hop and interact", "statement": "Under the same conditions, the sum of the weights of all configurations with at most M vertices, with the measure the program samples (one over the factorial of the number, every state of the fields counted with one over their number), tends with M to tr exp(-\u03b2(H+V)) / tr exp(-\u03b2H), where V is the interaction of the table averaged over the states of the fields. So the program samples the expansion of the right partition function, whatever the fields are.", "quantifier": "every number of flavors and sites, every Hermitian hopping, every table of terms of any rank, every temperature, real and complex amplitudes", "why_tests_cant": "The claim is about an infinite sum of integrals of growing dimension; a test compares samples with a few exactly solved models within errors.", "anchors": ["src/update_manager.hpp: insertion and removal of vertices, acceptance rates", "src/submatrix_impl/common.ipp: try_update, determinant ratios", "src/submatrix_impl/invA.ipp: recompute_matrix", "src/U_matrix.h: vertex_definition, itime_vertex"]}
{"id": "C97", "title": "Densities converge to thermal averages of the interacting model", "statement": "Let fermions of any number of flavors hop between any number of sites with a Hermitian Hamiltonian H, let the bare Green's function be that of H, and let V be the interaction of the table. As the maximal number of vertices grows, the quantities the program measures - the density matrix c\u2020_s c_s' of a flavor, the density of a flavor averaged over the sites, and the product of two densities of any flavors on any sites (for instance the double occupancy) - converge to their exact thermal averages with the Hamiltonian H+V. The only deviation is an explicit one: the program evaluates equal times with a time difference of 10\u207b\u00b9\u2070 \u03b2, which adds <c\u2020_s(10\u207b\u00b9\u2070\u03b2) c_s'> - <c\u2020_s c_s'> of the bare Hamiltonian to every c\u2020_s c_s', also to those that exchange the two pairs of a product.", "quantifier": "every number of flavors and sites, every Hermitian hopping, every table of terms of any rank with a partition function that does not vanish, every temperature, all flavors and sites; the density matrix for real and complex amplitudes", "why_tests_cant": "The limit is one of ratios of infinite sums of integrals; a test compares samples with a few exactly solved models within errors and cannot see a term of relative size 10\u207b\u00b9\u2070 or one that appears in a certain order only.", "anchors": ["src/measurement.ipp 496-590: measure_densities", "src/green_function.h: g0_spline, equal times", "src/submatrix_impl/invA.ipp: recompute_matrix", "src/U_matrix.h: vertex_definition, itime_vertex"]}
{"id": "C98", "title": "The measured self-energy is that of the interacting model", "statement": "Let fermions of any number of flavors hop between any number of sites with a Hermitian Hamiltonian H, let the bare Green's function be that of H, and let V be the interaction of the table. As the maximal number of vertices grows, the self-energy times Green's function of the expansion in a bin of imaginary time, as the program measures it (averaged over the random shift), converges to the mean over the bin of <[c_A, V](u) c\u2020_b> with the thermal average and the times of H+V; its Legendre coefficients converge to the corresponding sums over the bins. No term is missing or counted twice for interactions of any rank, with any number of states of the fields.", "quantifier": "every number of flavors and sites, every Hermitian hopping, every table of terms of any rank with a partition function that does not vanish, every temperature, every number of bins, all bins, flavors and pairs of sites, all Legendre orders, real and complex amplitudes", "why_tests_cant": "The limit is one of ratios of infinite sums of integrals; a test compares samples with a few exactly solved models within errors and sees a wrong treatment of the shifts alpha, of the equal-time terms of a vertex of higher rank or of the bins at the ends only if it is large.", "anchors": ["src/measurement.ipp 423-495: compute_Stau", "src/postprocess.hpp: self-energy and its Legendre coefficients", "src/green_function.h: g0_spline", "src/submatrix_impl/invA.ipp: compute_M, recompute_matrix", "src/U_matrix.h: vertex_definition, itime_vertex"]}
{"id": "C99", "title": "The Green's function reconstructed from the written self-energy is exact", "statement": "With the same fermions and interaction as in C96-C98, let S be the self-energy times Green's function <[c_A, V](u) c\u2020_b> of H+V. At every Matsubara frequency G = G0 - G0 S, the formula used with SigmaG_omega of the archive, is the Green's function of H+V. What the program writes as SigmaG_omega - bins in imaginary time, Legendre coefficients by the midpoint rule, Fourier transform of their expansion - comes as close as wanted to the Fourier transform of S with enough Legendre polynomials, then enough bins, then enough vertices; and so does the Green's function reconstructed from the archives of long runs.", "quantifier": "every number of flavors and sites, every Hermitian hopping, every table of terms of any rank with a partition function that does not vanish, every temperature, every frequency, all flavors and pairs of sites, real and complex amplitudes, every accuracy", "why_tests_cant": "Four limits are taken one after the other; a test sees one choice of the cutoffs and one run, with errors that hide a wrong sign convention of a small term or a wrong weight of the bins.", "anchors": ["src/measurement.ipp 423-495: compute_Stau", "src/postprocess.hpp: self-energy, its Legendre coefficients and SigmaG_omega", "src/legendre.h: LegendreTransformer", "tutorials/triangle/plot.py: G0 - G0 SigmaG"]}
{"id": "C100", "title": "A fine enough grid in the Green's function file gives the results of the Hamiltonian", "statement": "Let the file with the bare Green's function list, up to errors of at most \u03b4, the Green's function of a hopping Hamiltonian H on its equidistant grid of at least N points. With small \u03b4 and large N the Green's functions the constructed solver uses for the updates and for the measurements - natural cubic splines through the lines of the file, continued antiperiodically - are uniformly as close as wanted to those of H. With enough vertices, then small enough \u03b4 and large enough N, the sum of the weights is as close as wanted to the partition function of H+V divided by that of H, the measured density matrix and products of two densities as close as wanted to the thermal averages for H+V, and with enough Legendre polynomials and bins the Green's function reconstructed from the SigmaG_omega of long runs as close as wanted to that of H+V.", "quantifier": "every solver constructed from such a file with any parameters, every number of flavors and sites, every Hermitian hopping, every table of terms of any rank, every inverse temperature above 1e-8, real and complex amplitudes, every accuracy", "why_tests_cant": "A spline that is wrong at the ends of the interval or a shifted grid gives results that look reasonable; whether the error vanishes with the spacing cannot be told from a few grids.", "anchors": ["src/green_function.h: g0_spline, antiperiodic continuation, reading of the file", "src/spline.h: set_points, operator()", "src/submatrix_impl/common.ipp: weights", "src/measurement.ipp: densities, compute_Stau", "src/postprocess.hpp: SigmaG_omega"]}
{"id": "C101", "title": "What the program writes for the Green's function file of a Hamiltonian", "statement": "Let the file with the bare Green's function list, up to errors of at most \u03b4, the Green's function of a hopping Hamiltonian H on a grid of at least N points, and let the program be run by any number of processes from the empty configuration with usable parameters. With probability one the archives written by longer and longer runs finally give, with enough vertices, small enough \u03b4 and large enough N: densities as close as wanted to the mean over the sites of the thermal averages for H+V, products of two densities n_i n_j as close as wanted to the thermal averages for H+V (both up to the error from the time difference taken for equal times), and, with enough Legendre polynomials and bins, a SigmaG_omega from which the Green's function of H+V at every Matsubara frequency is reconstructed as accurately as wanted.", "quantifier": "every run of the whole program on almost every stream of random numbers, every number of processes, sites, flavors and Hermitian hopping, every table of terms, every inverse temperature above 1e-8, every frequency and accuracy; densities for real amplitudes, the Green's function also for complex ones", "why_tests_cant": "It relates the files the program reads to those it writes through the construction of the solver, random updates, measurements and postprocessing; a run of finite length has statistical errors that hide small systematic ones.", "anchors": ["src/main.hpp: run_simulation", "src/interaction_expansion.ipp: construction, update, measure", "src/green_function.h: g0_spline", "src/measurement.ipp: measure_observables, compute_Stau, densities", "src/postprocess.hpp: SigmaG_omega, densities, n_i n_j"]}
{"id": "C102", "title": "The average matrix size measures the interaction energy", "statement": "In the sum over all configurations the mean number of vertices is minus \u03b2 times the thermal average of the interaction V for H+V, and the mean size of the matrix of a flavor is the same with every term counted as often as it has operator pairs of this flavor. When weights are almost nowhere negative, the average matrix sizes the program writes at the end of long runs have these limits with probability one: given the wanted accuracy, enough vertices and then a fine enough grid in the Green's function file, the archives finally contain matrix sizes within this accuracy.", "quantifier": "every number of sites, flavors and Hermitian hopping, every table of terms with real amplitudes, every inverse temperature (above 1e-8 for the program), every accuracy, every number of processes, almost every stream of random numbers", "why_tests_cant": "The interaction energy is known independently only for small clusters, and the perturbation order fluctuates by its square root from configuration to configuration, so that a run of finite length cannot tell a systematic error from noise.", "anchors": ["src/measurement.ipp: measure_observables, PertOrder", "src/postprocess.hpp: average matrix size", "src/main.hpp: run_simulation"]}
{"id": "C103", "title": "model.U is the Hubbard model", "statement": "With two flavors and a number model.U the terms of the expansion, averaged over their auxiliary fields, are U \u03a3 (n\u2191-1/2)(n\u2193-1/2) minus the constant U N 0.51\u00b2. Hence, with a file that lists the Green's function of a hopping Hamiltonian, what long runs of the program write belongs to the Hubbard model: n\u2191 n\u2193 products tend to its thermal averages (up to the error from the time difference taken for equal times), the Green's function reconstructed from SigmaG_omega tends to its Green's function, and for U > 0 and a file with particle-hole symmetry the average matrix sizes of both flavors tend to \u03b2 (U N 0.51\u00b2 - \u27e8U \u03a3 (n\u2191-1/2)(n\u2193-1/2)\u27e9).", "quantifier": "every number of sites N, every Hermitian hopping, every U (positive for the matrix sizes), every inverse temperature above 1e-8, every accuracy and number of processes, almost every stream of random numbers", "why_tests_cant": "The shift of the densities by auxiliary fields (1.01 and -0.01) drops out only after averaging over all field states and all orders; a run with one U on one cluster can agree with the Hubbard model within its statistical error although the shift is wrong.", "anchors": ["src/U_matrix.h: general_U_matrix", "src/interaction_expansion.ipp: construction", "src/measurement.ipp: measure_observables, measure_densities", "src/postprocess.hpp: average matrix size"]}
{"id": "C104", "title": "Isolated Hubbard sites give the formulas of the Hubbard atom", "statement": "With two flavors, a number model.U = U \u2260 0 and a file that lists -1/2 on every site and 0 between sites, what long runs of the program write tends to closed formulas: the densities to 1/2, n\u2191 n\u2193 on a site to (1 - tanh(\u03b2U/4))/4 and on different sites to 1/4, the element of SigmaG_omega on a site at frequency \u03c9 to U\u00b2/(U\u00b2 + 4\u03c9\u00b2) and between different sites to 0, and for U > 0 the average matrix sizes of both flavors to \u03b2 U N (0.51\u00b2 + tanh(\u03b2U/4)/4).", "quantifier": "every number of sites N, every U \u2260 0 (positive for the matrix sizes), every inverse temperature above 1e-8, every frequency, every accuracy, every number of processes, almost every stream of random numbers; the maximal order, the numbers of Legendre polynomials and bins and the number of points of the file large enough", "why_tests_cant": "The formulas are limits in the number of steps, of orders, bins and polynomials; a run at one \u03b2 and U agrees with them only within a statistical error that hides small systematic mistakes.", "anchors": ["src/U_matrix.h: general_U_matrix", "src/interaction_expansion.ipp: construction", "src/measurement.ipp: measure_observables, measure_densities, measure_Sl", "src/postprocess.hpp: average matrix size, SigmaG_omega"]}
{"id": "C105", "title": "Bipartite Hubbard models are half filled", "statement": "If the Green's function file lists that of real hopping between two sublattices only (no field on any site) and model.U is a number, every site of the model is half filled at every temperature. Long runs write densities that tend to 1/2 (up to the error from the time difference taken for equal times), and for U > 0 and a file with particle-hole symmetry the average matrix sizes of both flavors tend to \u03b2 U (0.5101 N - D), where D is the sum of the thermal averages n\u2191 n\u2193 over the sites.", "quantifier": "every bipartite lattice of N sites and all real symmetric amplitudes, every U (positive for the matrix sizes), every inverse temperature above 1e-8, every accuracy and number of processes, almost every stream of random numbers", "why_tests_cant": "Half filling is exact only in the limit of all orders and infinitely many steps; a small violation, for instance by a wrong shift of the auxiliary fields, is within the statistical error of any run.", "anchors": ["src/U_matrix.h: general_U_matrix", "src/interaction_expansion.ipp: construction", "src/measurement.ipp: measure_densities", "src/postprocess.hpp: average matrix size"]}
{"id": "C106", "title": "Without a magnetic field the flavors give the same results", "statement": "If the Green's function file lists that of hopping which is the same for both flavors and model.U is a number, the densities of both flavors that long runs write tend to the same number, and the Green's functions reconstructed from the elements of SigmaG_omega of either flavor tend to the same function, that of flavor 0 of the Hubbard model.", "quantifier": "every number of sites, every real symmetric hopping equal for both flavors (any filling), every U, every inverse temperature above 1e-8, every frequency, accuracy and number of processes, almost every stream of random numbers", "why_tests_cant": "The auxiliary fields shift the two flavors by different amounts in every configuration; the symmetry comes back only in the average over fields and in the limit of all orders, so a run shows two different numbers and cannot tell statistical from systematic difference.", "anchors": ["src/U_matrix.h: general_U_matrix", "src/measurement.ipp: measure_densities, measure_Sl", "src/postprocess.hpp: SigmaG_omega"]}
{"id": "C107", "title": "The time difference taken for equal times hardly changes the results", "statement": "The measurements of densities take the bare Green's function at the time difference 1e-10 beta instead of zero. What this changes in an element of the bare density matrix is at most 1e-10 beta times the sum of the hopping amplitudes from the site. So the densities that long runs write are those of the interacting Hamiltonian up to 1e-10 beta times the average over the sites of these sums, and as close to that as wanted; for bipartite Hubbard models they are 1/2 up to this error; and for tables of products of densities, model.U among them, the products n_i n_j are those of the interacting Hamiltonian up to the sum and the product of the bounds for the two sites, twice that for two sites of one flavor.", "quantifier": "every number of flavors and sites, every Hermitian hopping, every interaction table on these sites (densities) or every table of products of densities (products), every inverse temperature above 1e-8, every accuracy and number of processes, almost every stream of random numbers", "why_tests_cant": "The error is far below what a Monte Carlo run resolves, and whether it stays small for all hopping amplitudes and temperatures needs a bound on the Green's function at all times.", "anchors": ["src/measurement.ipp:530 measure_densities, dens", "src/measurement.ipp:536 measure_densities, dense_mat"]}
{"id": "C108", "title": "Densities and products of densities of long runs are those of a probability", "statement": "Though single measurements can lie outside, the densities that long runs write for a number model.U are between 0 and 1, and the products n_up n_down are real, not negative and at most the densities of either site in the Hubbard model, up to the error of C107. For any Hermitian Hamiltonian a thermal density is between 0 and 1, and the average of the product of two different densities is at least 0 and at least their sum minus 1, and at most either of them.", "quantifier": "every number of sites, every real symmetric hopping, every U, every inverse temperature above 1e-8, every pair of sites, accuracy and number of processes, almost every stream of random numbers", "why_tests_cant": "Single measurements and short runs violate the bounds, so a test would need a tolerance; that the limit of all runs obeys them follows only from the average over all configurations.", "anchors": ["src/measurement.ipp:496 measure_densities", "src/postprocess.hpp: postprocess_densities"]}
{"id": "C109", "title": "How often each kind of update is carried out", "statement": "Every call of InteractionExpansion::update that returns has carried out measurement_period times n_ins_rem insertions or removals, n_shift shifts and n_spin_flip spin flips, and has recomputed the matrices exactly if it is the 20th, 40th, ... call. So k calls recompute the matrices k/20 times, rounded down, whatever the period is.", "quantifier": "every positive measurement period, all numbers of updates, every number of calls, every state, parameters and stream of random numbers", "why_tests_cant": "The rounding errors that the recomputation removes grow slowly; a recomputation that is missing or comes at the wrong call for some periods does not show in results of short runs.", "anchors": ["src/interaction_expansion.ipp:88 update", "src/interaction_expansion.ipp:129 recompute_matrix every 20 calls"]}

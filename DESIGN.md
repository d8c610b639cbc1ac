# Formal model of ALPSCore/CT-INT in Lean 4

Target: the C++ sources under `/repo/src` and `/repo/include/alps/fastupdate`
(read as text, never built or run here).  The model lives in `lean/Verif/`.

## Layout

* `Verif/Base/*`   outcome monads, index-function matrices, bridges to Mathlib matrices
* `Verif/Model/*`  definitions that model code; every definition cites file and lines
* `Verif/Spec/*`   small specifications, written without using the model's functions (they share record types such
  as `Change` or the operator systems `OpSys`, `FlSys`, and observe the model's states where a property speaks of what a
  client sees)
* `Verif/Proofs/*` helper lemmas
* `Verif/Props/*`  the property theorems (names `C01_...`, ...) with, beside each theorem,
  an `example` (or a `_witness` theorem) showing that a concrete non-trivial case meets its hypotheses
* `properties.jsonl` the properties in English, `MANIFEST.json` the theorems of each, `seeded/LOG.jsonl` the tests of the
  theorems against wrong programs

Theorem names: a theorem with suffix `_partial` proves less than the property says (its comment says what is missing); a
theorem with `_violation` proves that the code does not have the property in the stated situation; `_witness` gives the
concrete case.

## Modelling conventions

* **Scalars.** `double` / `std::complex<double>` become an arbitrary field `K`, ordered where the code compares, `ℝ` or an
  `RCLike` field where it uses exp, floor, absolute value or complex conjugation.  Rounding, overflow, NaN and infinities
  are *not* modelled, except where said so.  Division by zero is never used silently: the code's preconditions that make
  every divisor non-zero are hypotheses, or the model has an explicit failing outcome.  `mysign(0)` is 0 in the model (NaN
  in the code).
* **Undefined behaviour / assert / exceptions.** `Res α := ok a | throw e | ub`.
  Reading or writing out of bounds, using uninitialised memory for a decision, and a failing `assert` that guards such an
  access are `ub`; `throw` carries the exception class.  Where only an assert is at stake that release builds skip, the
  model has a parameter `dbg` (interaction reader) or a second version (`Model/Debug`, for `gamma.ipp`, `invA.ipp`, `common.ipp`; `Model/DebugSim`, `Model/DebugGreen`, for their callers and `green_function.h`), or the comment of the definition says that the release
  build is modelled (the asserts in the constructor of the partitioned matrix).
* **Uninitialised memory** that is only copied is a parameter `junk` of any content; theorems hold for every content.
* **Objects.** `Act σ α := σ → Res α × σ`: a member function gives an outcome and the members at the moment it returned or
  threw, so that theorems can speak about the state after an exception.
* **Non-termination.** Loops that may not end (`while(true)`, rejection sampling) take a number of iterations as fuel
  (`Run`); termination is then a theorem (some fuel suffices) or divergence is (no fuel suffices).
* **Matrices.** A run-time sized matrix is `DMat` (sizes plus `ℕ → ℕ → K`); only entries inside
  the size are observable.  Determinant, inverse and product of Eigen/BLAS are external calls:
  they are assumed exact (`Matrix.det`, `Matrix.inv`, `Matrix.mul` of Mathlib).  `Model/Resizable` keeps the allocated
  buffer as well and proves that the logical view is right; `gemm` is modelled for a result that is not one of the factors.
  `boost::multi_array` is shape plus row-major storage.
* **Integers** are `ℕ` or `ℤ`; sizes, counters and ids do not overflow.  Exceptions: the bin number of a histogram, where
  the conversion to `int` is modelled because a sample can make it overflow.
* **Randomness.** Every random number is an explicit input (a stream `ℕ → ℝ` with values in `[0,1)` and a position), so
  that theorems quantify over all streams.  Probabilities are volumes of sets of streams, for unbounded loops the product
  of uniform measures on `ℕ → ℝ` (`Spec/Streams.lean`); that the generator behaves like it is an assumption.  The discrete distribution of
  boost is an assumed primitive (index k with probability weight k / sum); the numbers it consumes are not modelled.
* **Input files.** `operator>>` on a file is an abstract stream: any type of stream states with one operation per kind of
  token; theorems hold for every behaviour of it, well-formed files are described by a specification of the tokens.  The
  solver of C80 reads the Green-function file by lines; that this is what reading it word by word does is C92.  The printed form of a number is its value rounded to six significant
  digits (ties up).
* **Concurrency.** MPI's `all_reduce` is a collective sum: the k-th call on every process matches.
* **Accumulators** of ALPSCore are arithmetic means of the values passed in.  Clock readings are not modelled.
* **Sets and maps of the determinant matrix**: `std::set` is the sorted list without equal times, `boost::multi_index` map
  entries are in any order; `operator<` of operators agrees with the order of their times.  Only the throwing check of
  `sanity_check` is modelled.  Flavors are not negative.

## Trusted base

* Lean 4.33.0 kernel; axioms `propext`, `Classical.choice`, `Quot.sound` only
  (see the `#print axioms` list at the end of this file).
* Mathlib's definitions used in statements (`Matrix.det`, matrix product, `Equiv.Perm.sign`, reals, integrals, measures,
  polynomials).
* The correspondence between the cited C++ lines and the Lean definitions, checked by reading only.
* External libraries behave as documented: Eigen (det / inverse / product / block assignment; `FullPivLU` as P A Q = L U), boost
  multi_index sets and distributions, STL containers and `lower_bound`, MPI reductions, `collect_results` returns the means
  over the records of all processes, the random generator returns values in `[0,1)`.

## Which code is modelled

| code | model |
|---|---|
| `include/alps/fastupdate/detail/util.hpp` (lu_product), `resizable_matrix.hpp` (phase_of_determinant), `compute_determinant_as_product` | `Model/LU` |
| `src/submatrix.hpp`, `src/submatrix_impl/{invA,gamma,common}.ipp` | `Model/InvA`, `Model/Submatrix`, `Model/SubmatrixRun`, `Model/Scratch`, `Model/Debug` |
| `src/fastupdate_formula.h`, `include/.../fastupdate_formula.*` | `Model/FastUpdate`, `Model/FastReplace`, `Model/ReplaceRC`, `Model/Safe` |
| `include/.../resizable_matrix.hpp` | `Model/Resizable` |
| `include/.../determinant_matrix*.{hpp,ipp}` | `Model/DetMatrix`, `Model/Partitioned` |
| `include/.../detail/{clustering,util}.hpp` | `Model/Clustering`, `Model/Sort`, `Model/Safe` |
| `src/U_matrix.h` | `Model/UMatrix` (tables, readers, configurations), `Model/Manager`, `Model/PairGen`, `Model/Quantum` (`find_valid_pair_multi_vertex_update`), `Model/Select` (selection by kind) |
| `src/update_manager.hpp` | `Model/Manager`, `Model/Random`, `Model/Global`, `Model/GlobalText`, `Model/PairGen`, `Model/DebugSim`, `Model/UserPairs` |
| `src/util.h`, `src/operator.hpp` | `Model/Random`, `Model/Util` and the files that use their functions |
| `src/update_statistics.h` | `Model/Statistics`, `Model/Observables`, `Model/Spread` (`compute_spread`), `Model/Cutoff` |
| `src/interaction_expansion.{hpp,ipp}` | `Model/RunLoop`, `Model/Simulation`, `Model/Solver` (constructor), `Model/Manager`, `Model/Scratch` |
| `src/program_options.hpp` | `Model/Solver` (the parameters the solver reads) |
| `src/green_function.h`, `src/spline.h` | `Model/Green`, `Model/GreenText`, `Model/DebugGreen`, `Model/Spline`, `Model/Clustering` (`make_groups`), `Model/Quantum` (`make_quantum_numbers`, `is_zero`) |
| `src/main.hpp` 11-53 | `Model/Program` (n processes) |
| `src/legendre.h`, `src/measurement.ipp`, `src/postprocess.hpp` | `Model/Legendre`, `Model/Measure`, `Model/Observables`, `Model/Matsubara`, `Model/Postprocess`, `Model/Names` (the observables by name) |

Not modelled: HDF5 and parameter files, `main*.hpp/.cpp` except `run_simulation`, the parsing of program options, timing, memory allocation failure,
floating-point rounding, `std::complex` formatting, `boost::math::sph_bessel` (a parameter, assumed to be the spherical
Bessel function in C61), naming of the accumulators, printing to the screen.


## Per property: what is modelled, how it is proved, result

| id | what is modelled | how it is proved | result |
|---|---|---|---|
| C01 Block extension keeps the exact inverse | `InvAMatrix::extend` on index functions, A from scratch | block-triangular inverse, entrywise sum splitting | proved |
| C02 Fast and slow evaluation of G = A^-1 G0 agree | `eval_f`, the fast column formula, slow product | from A^-1 A = 1 by column | proved |
| C03 Spin-flip determinant ratio is exact | `try_add/try_remove/try_add_remove`, Gamma from scratch | det(A_new)=det(A_old) det((1+γ)-Gγ), restricted to changed columns; ratio of Gamma determinants by Schur complement; invariant over histories | partial |
| C04 Finalising a batch yields the exact inverse | `update_matrix` | Woodbury identity, entrywise | proved |
| C05 M and the Monte Carlo weight agree with their definition | `compute_M`, weights, `try_spin_flip` product of factors | A=(G0-α)(1-F), det multiplicativity, product over vertices | partial |
| C06 Dropping non-interacting operators keeps the inverse | `remove_rows_cols` with swaps | swap-to-end lemma (C14) and unit columns of non-interacting operators | proved |
| C07 A rejected trial leaves no trace | engine state machine, try/reject | state equality / equivalence up to Gamma row order | proved |
| C08 The vertex list is exactly the accepted edits | engine vertex list | refinement to a list-edit specification over all histories | proved |
| C09 Vertex identifiers are never reused | id counter | invariant over all histories | proved |
| C10 Finalising never fails on a valid interaction | `remove_rows_cols(uids)` per flavor | success when every vertex touches every flavor; negation otherwise | partial |
| C11 Growing a matrix: determinant ratio and inverse | both libraries' up formulas | Schur complement | proved |
| C12 Shrinking a matrix: determinant ratio and inverse | both libraries' down formulas | Schur complement | proved |
| C13 Removing arbitrary rows and columns: sign included | row/column removal with sign | complementary minors via move-to-end permutation parity | proved |
| C14 Swap-to-the-end moves exactly the chosen positions | the swap loop | induction over the position list | proved |
| C15 Replacing rows and columns: determinant ratio and inverse | `ReplaceHelper`, `compute_*_replace_rows_cols` | block identities; violations | partial |
| C16 Replacing one row or one column | row and column replacement | Sherman-Morrison; violation | partial |
| C17 Changing selected diagonal elements | diagonal replacement | Woodbury, `det_one_add_mul_comm` | proved |
| C18 Overflow-safe determinant and inverse are the determinant and the inverse | scaled determinant and inverse | `det_smul`, `inv_smul` | proved |
| C19 Resizing keeps every common element and never outgrows its buffer | `ResizableMatrix` with its buffer | refinement to plain tables over operation sequences | proved |
| C20 Sorting reports the parity of the permutation | comb_sort, list of swaps | each exchange is a transposition; termination measure = inversions; sortedness at gap 1 | partial |
| C21 Permutation sign of distinct elements | bubble-sort sign | inversions parity; divergence on duplicates | proved |
| C22 Cluster labels are connected components | `Clustering` | union-find invariant alias[i] ≤ i, equivalence closure | proved |
| C23 Site groups are connected components | `make_groups` | partition; chains under a condition; negation by witness | partial |
| C24 Determinant matrix: ratios and determinant are exact over all histories | `DeterminantMatrix` state machine | invariant over histories, refinement to time-ordered determinants | partial |
| C25 Determinant matrix: rejected updates restore the operator set | the same, rejections | invariant over histories; violations | partial |
| C26 Determinant matrix: call protocol is enforced | the same, call protocol | case analysis of the state checks; violations | partial |
| C27 Partitioned determinant: operator sets stay in step | `DeterminantMatrixPartitioned` operator sets | invariant over histories; violations for equal times | partial |
| C28 On-site interaction table | `set_onsite_U` | evaluation of the table, average over auxiliary states | proved |
| C29 Interaction file reader refuses out-of-range indices | `load_vertex_from_file` | decision logic over every behaviour of the stream; well-formed files in any spelling of the numbers | proved |
| C30 Configuration dump and load are inverse | `dump`, `load_config` as token streams | round trip; files with exact times in any spelling; violation by rounding; a garbled time | partial |
| C31 Equal-time vertices are refused | `push_back` | negation; positive part for free times | partial |
| C32 Random selection without repetition | `pickup_a_few_numbers` over infinite streams | invariant, fairness for termination, divergence for n>N | proved |
| C33 Folding times into the period | `mymod` over ℝ | floor arithmetic | proved |
| C34 Pair-distance distribution is a proper, bounded density | `SymmExpDist` over ℝ | interval integral, convexity inequality, law of the rejection method | proved |
| C35 Window sampling returns times inside the window | window predicate and sampler | case analysis | proved |
| C36 Valid pairs for double-vertex updates | `pick_up_valid_vertex_pair2` | cumulative selection | proved |
| C37 Insertion and removal satisfy detailed balance | acceptance factors and Metropolis test | reciprocal factors, volumes, detailed balance equation | proved |
| C38 Perturbation order never exceeds its maximum | update-manager steps over the engine | invariants over all random streams | proved |
| C39 Spin-flip and shift updates preserve what they must | spin flip and shift steps | invariants over all random streams | proved |
| C40 Acceptance statistics count accepted moves | acceptance counters | case analysis; violation at ratio 1 | partial |
| C41 Accepted global updates take effect | `global_updates` with shared pointers (handles) | negation; inverse closure for permutations | partial |
| C42 Bare Green function is antiperiodic and time ordered | Green function time reduction | well-founded loops over ℝ | proved |
| C43 Interpolation uses only stored data | interpolation index | floor arithmetic | proved |
| C44 Cubic spline interpolates smoothly | spline set_points, band LU | pivots by diagonal dominance, forward/back substitution induction | proved |
| C45 Legendre recursion yields the Legendre polynomials | Bonnet recursion | equality with the formula of Rodrigues | proved |
| C46 Optimised and reference self-energy estimators agree | both accumulation loops | sum reordering | proved |
| C47 Binned self-energy estimator stays inside its bins | shifted time and bin index | floor arithmetic | proved |
| C48 Density correlation layout is read back as it was written | flatten / unflatten, density measurement | index arithmetic round trip | proved |
| C49 Histograms account for every sample | histograms | sums over bins | partial |
| C50 Proposal rates stay a probability distribution | proposer of insertion numbers | sums over bins, invariant | proved |
| C51 Measurement only after thermalisation, preparation exactly once | step/measure loop | invariant over histories | proved |
| C52 Parallel run loop ends on all processes together | run loop with collective reductions | induction on number of reductions | proved |
| C53 Monte Carlo updates never fail and report the exact weight ratio | all updates over the engine | no undefined outcome over all histories | proved |
| C54 Global updates leave the Monte Carlo weight stationary | global moves | detailed balance for involutions; violation | partial |
| C55 The run loop reports whether the run was stopped | completion report | single process; violation | partial |
| C56 The reader of the bare Green function accepts exactly what it can use | Green-function reader | decision logic over file contents | partial |
| C57 Measured density correlations obey Wick's theorem | density matrix and correlations | Wick expansion; violations for complex data | partial |
| C58 Binned self-energy gives the Legendre coefficients with times moved to bin centres | binned self-energy, postprocessing | sum over bins | proved |
| C59 Truncated interaction files are refused | `load_vertex_from_file` at the end of the file | violation | partial |
| C60 Partitioned determinant: exact full determinants | `DeterminantMatrixPartitioned` signs, determinant, inverse | sign of interleaving as parity of an order, block-diagonal determinant, invariant over histories | proved |
| C61 Frequencies are the Fourier transform of the Legendre expansion | the loops that fill `Tnl_`, the loops that apply it | orthogonality of Legendre polynomials, integration by parts and induction on the order for their Fourier transforms; loop invariants | proved |
| C62 Updates return with probability one | random numbers as a stream with the product of uniform measures; all updates of `Walker.run` | Borel-Cantelli: almost every stream produces every index infinitely often; then C53 | proved |
| C63 Spin-flip updates leave the distribution of the auxiliary fields unchanged | `spin_flip_step`, `do_spin_flip_update`, `pickup_a_few_numbers`, `Walker.run` on streams | law of each loop by splitting the product measure at its first number; the kernel of an attempt is reversible; induction over the attempts of a batch and over batches | proved |
| C64 The updates leave the ensemble of configurations with continuous times unchanged | `do_ins_rem_update`, `do_shift_update`, `do_spin_flip_update`, `Walker.run` on streams; `green_function::operator()` for the table | the law of every loop is that of an explicit sampler on lists of points (splitting the product measure at its first numbers); insertion and removal, shift and spin-flip kernels leave the ensemble invariant (Tonelli, permutation symmetry, detailed balance); induction over the updates; bounds on determinants for the normalisation | proved |
| C65 Recorded acceptance rates belong to the attempts since the last record | both counters of the update manager, `measure`, `prepare_for_measurement_steps` | induction over the updates with the counts of C40; the missing count of shifts by inspection of the model | partial |
| C66 A measurement records the values of the present configuration | `measure_observables`, `measure_Sl`, `measure_densities` on the object reached by any run | the object holds the inverse of the matrix of its configuration (C21), all times stay in [0,β]; Cramer's rule and bordered determinants turn products with the inverse into ratios of determinants; those do not depend on the order of rows | proved |
| C67 Means of the recorded values are the sums of the expansion | the updates of C64 followed by the measurement of C66, on the product of the ensemble and the streams of random numbers | the law of configuration and rest of the stream after the updates (the simulation lemmas of C63/C64 with the rest of the stream kept); the record as a measurable bounded function of both (C66); Fubini | partial |
| C68 Replacing a row together with a column | the four functions and the ratio, with the exchanges, blocks, both branches, the collection of rows and columns from Q, R, S, size checks | matrix determinant lemma for the rank-two change; block identities for the two branches; induction over the list of rows for the successive version | partial |
| C69 Placing rows and columns in a matrix | the three functions, element writes and exchanges as in the code | loop invariants for the index lists; the set of written positions; the permutation of the exchanges | proved |
| C70 Rejection sampling draws from the distribution it is given | the loop with its two draws, the assertion and the comparison | first accepted round; geometric series over the round; a stream splits into two numbers and a stream; Tonelli | proved |
| C71 Law of a generated pair of vertices | the two functions on a random stream, with the assertion and the throw | C70 for the distance, change of variables modulo beta, independence of later draws; the index drawn is uniform | proved |
| C72 The simulation forgets its start, unless it cannot leave it | the whole update loop on a random stream; the modulus of the weight as target | every repetition has at least a fixed probability to remove one vertex and to do nothing else, so after M+1 repetitions the empty configuration has probability at least delta from every start; coupling of means (Doeblin) and invariance (C64) | proved |
| C73 Averages over one long simulation converge to the sums of the expansion | the whole loop of updates and measurements with its step counter, thermalisation and log of records | the passes after thermalisation are iterates of one random map whose law renews (C72); bounded second moments of centred sums along squares give almost sure convergence, filling the gaps by boundedness; the mean under the ensemble is that of C67 | proved |
| C74 The self-checks of a debug build accept exactly the right states and change nothing | every sanity_check, the debug-only assertions and the calls that contain them; a failing assertion is ub | the invariants of C08 satisfy each check; conversely a passed check determines the operator lists up to order (same length, distinct keys) and, through the recomputed sign, that the weight is not zero | partial |
| C75 Determinants as sorted products, and their phases | lu_product, phase_of_determinant and both compute_determinant_as_product; the decomposition and the sort are parameters | determinants of triangular factors and signs of permutations; the invariants of C24 and C60 give the sign of the matrix order and of the sectors | proved |
| C76 What the program writes converges to the expansion | postprocess with all it calls, on the log of the simulation of C73; the means are sums over counts | laws of large numbers of C73, extended to products of densities (Wick determinants as ratios of weights) and matrix sizes, for all entries at once; the specifications of the transformations (C48, C58, C61) carry the limits through | proved |
| C77 The self-energy written is right for complex weights too | simulation, measurement and post-processing of C73 and C76 over any RCLike field | the real and imaginary part of phase times ratio are each an estimator (continuous linear functionals of the same complex quantity); the strong law of C73 for both; the limits are carried through the transformations | proved |
| C78 Every recorded quantity has its own observable and is read back under its name | the observables as a map from the names the code builds (strings with decimals) to the values passed; creation, writing and reading in the order of the code | the names are injective in what they stand for (decimals contain no underscore, decimal notation is injective); invariant over the measurements; reading by name equals reading the records | proved |
| C79 The debug build of the solver runs the same Monte Carlo chain as the release build | the update manager, the simulation loop, the measurement and the bare Green function a second time, calling the debug versions of the object (`Model/DebugSim`, `Model/DebugGreen`) | each trial of the manager satisfies the condition under which the checks of the object pass (invariant over the turns of each update), so every function equals its release version; the natural spline through zeros is zero (maximum principle for the tridiagonal system), so the polynomial with the stored coefficients is the value of the spline objects | proved |
| C80 From the parameters and input files to a solver that runs and converges | the constructor of the solver with the readers it calls (`Model/Solver` on top of `Model/UMatrix`, `Model/Green`, `Model/Legendre`, `Model/Manager`, `Model/Submatrix`) | what the readers guarantee (C28, C29, C56) gives the hypotheses of the theorems on the chain: shapes of the terms, continuity hence measurability and boundedness of the interpolated function and its continuation, the empty or loaded start; then totality of a pass by composing C53, C38, C66 and induction over the passes; the archive by C76 | proved |
| C81 The checks of the determinant matrices in a debug build only look, and never fail on correct use | the asserts and `sanity_check` of both classes (`Model/DetMatrix`, `Model/Partitioned`, flag `dbg`) | `Checked`: whenever the debug call comes back so does the release call, with the same result and members; compositional over sequencing, loops and calls on blocks. That no check fails: the invariants of C24 and C27 imply each of them | partial |
| C82 The quantum numbers of the vertices are the particles they add to separate groups of sites, they are conserved, and the pairs found with them are exactly the opposite ones | `make_quantum_numbers`, `is_zero`, `find_valid_pair_multi_vertex_update` (`Model/Quantum`) | fold over the operator pairs for the numbers; conservation: a determinant that is not zero has a permutation without zero factor, which maps rows to columns of the same group; closed form of the two loops for the pairs | partial |
| C83 Vertices selected by kind are of that kind, drawn uniformly, and pairs are drawn uniformly among the valid ones | predicates, `generate_itime_vertices`, `generate_valid_vertex_pair`, `pick_up_itime_vertices`, `count_valid_vertex_pair`, `pick_up_valid_vertex_pair` (`Model/Select`) | induction over the number of vertices, with the product measure for the law; positions through `pickNumbers` (C32); closed form of the double loop over pairs | partial |
| C84 The spread of vertices is the length of an arc of the imaginary-time circle that holds them, and does not depend on their order or on where the circle begins | `compute_spread` (`Model/Spread`) | the loop in closed form with distances from the centre in [-pi,pi); the centre turns with the vertices (argument of a product); a sum of unit vectors within a sector points into the sector | partial |
| C85 The adaptive cutoff follows the samples of the flavours and stays within its bounds; counters count | `get_mean`, `update_cutoff`, `scalar_histogram_flavors`, `simple_update_statistcs` (`Model/Cutoff`); what is looked at in `Spec/Cutoff` | invariant: every histogram holds the samples of its flavour since the last reset; the rebinned sections are the quarters because every sample lies in one bin; induction over the calls | partial |
| C86 Pairs of vertex types given by the user are added once to the pairs found | the loop that reads the pairs after the search for pairs (`Model/UserPairs`) | invariant over the pairs read: no pair twice, the flags are the symmetric table of the pairs; the rest of the text is arbitrary, so that odd numbers of entries and words can be followed | partial |
| C87 Helpers: falling factorial, removal by position, deviation from the identity, order of operator times | `permutation`, `remove_elements_from_vector`, `is_identity`, order of `operator_time` (`Model/Util`) | loops in closed form; unsigned numbers modulo 2^64 | partial |
| C88 The program on any number of processes writes one file, and what it writes converges to the expansion | `run_simulation` on n processes (`Model/Program`), with the runs of the parallel loop (`Model/RunLoop`) that can complete (`Spec/Program`) | a completed loop has made the requested steps after thermalisation in total; pooled averages converge if those of each process do, however the records are distributed; then as C76, C77 | proved |
| C89 However small the weights: results converge to the expansion if the weights vanish at most on sets of measure zero | the simulation of C73 and the program of C88; `AlmostNonzero`, `AlmostShrinks` (`Spec/Converge`) | the updates keep the ensemble; maximal inequality and pointwise ergodic theorem for the shift of the random numbers; from almost every configuration the empty one can be reached, hence invariant events are trivial; then as C76, C77, C88 | proved |
| C90 On-site repulsion at particle-hole symmetry has no sign problem | the constructed solver of C80 and the program of C88; `IsHubbard`, `PHSymmetric`, `PHFile` (`Spec/HalfFilled`) | the reversed natural spline is the natural spline of the reversed values (uniqueness, C44); the matrix of one flavor is minus the transpose of the other up to signs of sites; almost every configuration has distinct times; what almost every configuration has, every configuration met from the empty one has with probability one, as the updates keep the ensemble and the empty configuration has positive probability | proved |
| C91 Levels coupled by interactions between densities are solved exactly | the weights of C05, the constructed solver of C80 and the program of C89; `states`, `fieldTerm`, `interaction`, `statesZ`, `statesMean`, `seriesMean`, `DensityTerm`, `LevelsG0`, `LevelsG`, `FlatFile` (`Spec/Levels`) | a matrix with one value above and one below the diagonal has a determinant that is the mean of two products; blocks for the sites; the integral of a product over independent points is a power; the exponential series; uniqueness of the natural spline | proved |
| C92 Incomplete files with the bare Green's function are refused | `read_itime_data` word by word, with variables that may not be initialised (`Model/GreenText`); `GFile.Writes` (`Spec/GreenText`) | simulation: on any words the reader does what the reader of lines does with the values of its variables as lines; then C56; after a failure the variables do not change, so two lines have equal indices | partial |
| C93 The file of global updates is read as written or refused | the reading loop of the constructor of `VertexUpdateManager` word by word, with variables that may not be initialised, and the `std::set` of moves (`Model/GlobalText`); `movesText`, `MoveOf` (`Spec/GlobalText`) | the loops succeed iff the words read are those of complete moves, up to the last word (induction over lines and moves; after a failure the source does not change, so the check against the running type refuses the next line); sorted insertion for the set | partial |
| C94 A Hermitian Hamiltonian is normalised by the right number | the weights, the solver made from the input and the averages of C77, C80, C89; `HermitianTerms`, `HermitianG0`, `HermitianFile` (`Spec/Hermitian`) | conjugation with reversed times permutes the configurations: it transposes the matrices of every flavor and keeps the measure on vertices, so the imaginary part of the sum is its own negative; natural splines through conjugate values are conjugate (uniqueness, C44) | proved |
| C95 The weight of a configuration is a thermal average | the matrices and weights of C05 with any bare Green's function; fermions as matrices, the bare Hamiltonian, thermal averages and vertices as operators (`Spec/Fock`) | Wick's theorem for the thermal average of a quadratic Hamiltonian, proved by moving one creator around the trace and expanding the determinant; the flavors factorise because different flavors anticommute; annihilators for every number of flavors and sites are built by doubling the space (Jordan-Wigner) | proved |
| C96 The expansion is exact for fermions that hop and interact | as C95; the measure on configurations of C64, C67 | integrals over unordered times are sums over ordered ones; the ordered integrals are the terms of the Dyson series, whose remainder is bounded by a power over a factorial; the series solves the differential equation of exp(βH)exp(-β(H+V)) | proved |
| C97 Densities converge to thermal averages of the interacting model | as C96; the weights with one or two more pairs of operators of C66, C76 (`weightExtra`, `weightTwo`); the bare Green's function of the time difference (`Spec/FockGreen`) | Dyson series with operators at fixed times in between (`marked`), its limit is the evolution with H+V between the operators; sums over configurations and the average over the time are exchanged by Fubini, the limit is taken under the integral by dominated convergence; cyclic invariance of the trace relates the two forms of the bare Green's function | proved |
| C98 The measured self-energy is that of the interacting model | as C97; the binned weights of C66 and their Legendre coefficients (`Spec/SelfComplex`); <[c,V](u) c†> in `Spec/FockSigma` | a row of the determinant is opened: the sum over the annihilators of a vertex with the M matrix and the bare Green's function is the commutator of the annihilator with the vertex; the sum over configurations with one picked vertex is the integral over that vertex of sums over the others, whose limit is the evolution with H+V; the average over the shift turns the time of the vertex into the time difference | proved |
| C99 The Green's function reconstructed from the written self-energy is exact | as C98; the numbers written (`writtenOmega` in `Spec/FockMotion`, the value to which `SelfTo` says the archive converges); the Green's function of a Hamiltonian (`greenOf`) | equation of motion of the Green's function, partial integration over [0,β] with exp(iωβ) = -1, inverse of the matrix iω - h; Legendre polynomials span all polynomials, Weierstrass and Bessel give the convergence of the expansion; uniform continuity gives that of the sums over bins | proved |
| C100 A fine enough grid in the Green's function file gives the results of the Hamiltonian | construction of the solver from the parameters (`FullSolver.create`, C80), spline of the file (C44), weights, densities and written self-energy as in C96-C99; a file that lists the Green's function (`ListsGreen`, `FineRun` in `Spec/FockGrid`) | the curvatures of the natural spline are bounded through the tridiagonal system (maximum principle), so that spline and function differ by at most 19δ + 10ω with ω the modulus of continuity at the spacing; dominated convergence for the sums over configurations; then C96, C97 and C99 for the exact Green's function | proved |
| C101 What the program writes for the Green's function file of a Hamiltonian | the whole program (`runSimulation`, C89) with a file that lists the Green's function (`FineRun`); `FineProgram`, `ArchivesEventually` in `Spec/FockProgram` | C89 and C94 give almost sure convergence of the archive to the sums over configurations, C100 puts these sums near the thermal averages; the partition function does not vanish by C100_partition; for sites without hopping the product of the vertices is a power of U times the square of an invertible Hermitian matrix, so that no weight vanishes | proved |
| C102 The average matrix size measures the interaction energy | sizes of the matrices (`rowsOf`) in the sums over configurations of C89, `pairsIn`, `multiplied`, `AlmostNonnegative` in `Spec/FockOrder` | 2×2 block matrices with the vertex on the diagonal and the vertex times its number of pairs above make the product of the vertices carry the sum of these numbers; Dyson series for the blocks, first-order change of exp by conjugation with exp of the perturbation under the trace; fine grids by dominated convergence as in C100 | proved |
| C103 model.U is the Hubbard model | the table of terms made for `model.U` (`UTable.onsite`, C28, C80) as operators on Fock space; `hubbardV`, `pairOn` in `Spec/Hubbard` | the average over the two field states removes the linear terms; a constant in the Hamiltonian drops out of averages and of the evolution in imaginary time; then C101, C102 with the nonnegative weights of C90 | proved |
| C104 Isolated Hubbard sites give the formulas of the Hubbard atom | `IsolatedFile`, `IsolatedProgram` in `Spec/HubbardAtom`: the parameters and the file, without operators | (2n↑-1)(2n↓-1) is an involution, so its exponential is cosh - sinh times it; flipping one spin changes its sign, so traces with the other sites vanish; the annihilator evolves with the exponential of the other flavor's density; Fourier integral of two exponentials; then C103 and C101 | proved |
| C105 Bipartite Hubbard models are half filled | `BipartiteHops` in `Spec/Bipartite`; the Hubbard model of C103 | the product of a + σ a† over all modes exchanges annihilators and creators; it commutes with the Hamiltonian and changes the sign of n - 1/2, whose average therefore vanishes; then C101 and C103 | proved |
| C106 Without a magnetic field the flavors give the same results | the Hubbard model of C103 with hopping that does not depend on the flavor | the product over the sites of 1 - (a0 - a1)†(a0 - a1) exchanges the flavors and commutes with the Hamiltonian; then C101 and C103 | proved |
| C107 The time difference taken for equal times hardly changes the results | the error of C97 and C101, `equalTimeError` | in the eigenvectors of the Hamiltonian the Green's function is a sum of exponentials with products of matrix elements, so it is at most one; the equation of motion bounds its derivative by the hopping amplitudes | proved |
| C108 Densities and products of densities of long runs are those of a probability | the Hubbard model of C103 and the error bound of C107 | thermal averages of projections are not negative, in the eigenvectors of the Hamiltonian; densities are commuting projections; then C107 | proved |
| C109 How often each kind of update is carried out | `turnUpdates`, `updateUpdates` and `Sim.update` | induction over the calls; step is the number of calls times the period | proved |

Theorem names and remarks for every property are in `MANIFEST.json`.

## Places where the code does not have the property

Each is proved (theorems with suffix `_violation`) with a concrete witness; what does hold is proved beside it.

* C03: All histories of the object and all non-throwing trials, except trials that both leave and restore batch-start fields on a flavor whose det A half way is zero. Those are not exact: they report 0 (C03_half_way_zero), also when the ratio is not 0 (C03_half_way_violation). Accepting mixed trials while another field stays away from its batch-start value is undefined (C03_perform_add_remove_violation).
* C10: the claim is false for interactions with a term that does not touch every flavor; exact condition proved
* C15: holds for the library in include/ when the common leading block is invertible (as the property says); the helper returns 0 otherwise although the ratio may be non-zero (witness). src/fastupdate_formula.h l.808 writes the wrong block: update correct only when nothing is kept; violation proved for all other sizes
* C16: proved for include/ and for the ratio in src/; compute_imverse_matrix_replace_row (src/) lacks a return statement, so every call is undefined although the matrix it stores is right
* C19: Buffer and logical size over all sequences of calls; also determinant, gemm and copy_block. C19_bound_violation records that operator() admits the row after the last, which can lie outside the buffer.
* C20: Sorting, permutation sign and termination for every non-empty range; the empty range reads the end iterator and runs forever or is undefined (violation theorem).
* C23: Partition for every relation; groups are components when no later site joins two groups; otherwise connected sites are put into different groups (violation theorem).
* C24: All histories of insertions, removals, single replacements and combined changes, from the empty object or a list: exact ratios, determinant, sign and inverse. Not true in general, three violations proved: replacing two or more annihilators is ignored with ratio 1, replacing two or more creators reads past the end, a combined change whose remaining matrix is singular reports 0.
* C25: Holds for every valid trial, impossible insertions, uneven changes and combined changes with singular rest. False for impossible removals and impossible combined changes: rejecting them restores operators of an earlier, accepted update (proved with witnesses). Built with asserts, rejecting an impossible combined change stops the program (C25_impossible_exchange_debug).
* C26: Second trial: exact in a build with asserts; in a release build it raises logic_error but overwrites update_mode_, after which the pending trial can be neither performed nor rejected. No trial: exact except after empty or uneven trials (silent), on a fresh object (uninitialised read) and for perform_update after a combined change (inverse overwritten before the check).
* C27: In step over every history without equal times of operators of the same kind. The code violates the full claim: rejecting an impossible insertion at the time of an existing operator erases that operator from the global set; inserting at the time of an operator of another sector leaves the new operator out of the global set. Built with asserts, both stop the program.
* C30: dump prints times with the default precision of six digits: types, fields and order come back exactly, times only if they have at most six significant digits. Counterexample proved. A file written with enough digits is read as it is, however the times are spelled; an unreadable time gives a vertex at 0 and garbage after it, unreported.
* C31: push_back constructs the exception but does not throw it: the property is false for every occupied time. Proved for free times.
* C40: The code takes a returned ratio of 1 for a rejection, so an accepted move with ratio exactly 1 is counted as rejected (C40_violation); moves with another ratio are counted right (C40_counts_partial).
* C41: The solver pointer is passed by value, so an accepted move has no effect (C41_no_effect, C41_violation); files whose maps are not permutations are accepted (C41_moves_violation). Proved: the decision, the object built locally, and closure under inverses for files of permutations.
* C44: C44_spline is the whole statement for the value. The extra claim about deriv(order, t) holds everywhere except order 2 left of the first point, where the code returns 2*b0*h instead of 2*b0 (C44_deriv_violation).
* C45: For at least one polynomial. With n_legendre = 0 the constructor writes outside its table (C45_empty_violation). The polynomials are specified by the formula of Rodrigues.
* C49: A sample whose bin number does not fit an int, and any sample in a histogram made by the constructor with arguments, is undefined behaviour; everything else is proved.
* C54: Holds for moves that are their own inverse; fails for a cyclic exchange of three types.
* C55: With more than one process, those not asked to stop themselves report completion.
* C56: Holds for at least three grid points and at least one line of data; otherwise the call is undefined instead of throwing (the two violations). Files that are cut within a line are in C92.
* C57: Proved when the off-diagonal density matrix products and the sign are real (always so for the real build). For complex Green functions the code drops imaginary parts before multiplying, and for complex signs it records a product of real parts: both counterexamples are proved.
* C59: The property is false: for every well-formed term and every announced number the missing terms become copies of the last one read (release build). Well-formed files are covered by C29_file.
* C65: The code violates the claim for shifts: acc_rate_shift is never counted, so VertexShift_Acceptance_Rate is 0/0 at every measurement (C65_shift_violation). Insertions and removals: proved, except that accepted moves of weight ratio exactly 1 count as rejected (see C40).
* C67: Law of configuration and unused random numbers: proved for real and complex weights. Sign: proved for both. Density and self-energy: proved for real weights; for complex weights the code records Re(phase) * Re(ratio) instead of Re(phase * ratio), so the claim for the density fails (C67_complex_violation) and only C67_density_complex_partial holds. Configurations of weight exactly 0 are never visited and do not contribute. Random numbers: independent uniform reals; real arithmetic. The self-energy with complex weights is in C77.
* C68: The ratio is always right for replace_row_col, and for the other functions under their stated assumption. The inverse is right when the matrix without the row and column is not (nearly) singular. When it is singular the code leaves out a term: the matrix written is the inverse if and only if the new diagonal element is 0 (C68_singular_iff; witness C68_violation). replace_row_col2 returns a wrong ratio when its assumption fails (C68_row_col2_violation). The successive version is undefined for an empty list. Not stated: the error made when the remaining determinant is not zero but below the threshold. Real elements, exact arithmetic.
* C80: Simplified: negative integers are modelled only for the measurement period; GLOBAL_UPDATES is not given. C80_archive: real weights, bounded away from zero up to max_order (as in C72, C76). C80_legendre_violation: no check on the number of Legendre polynomials.
* C81: Partial: accepting a change that takes the last operators out of the partitioned matrix, or building it from an empty list, is undefined in a debug build (comb_sort moves an iterator past the end of an empty vector), while the release build does it right (proved).
* C82: Proved for make_quantum_numbers given a function that answers whether two sites of a flavor are unconnected. Partial: the function actually called, green_function::is_zero, takes the flavor first while the sites are passed first; with more sites than flavors this reads the Green function outside its range, and with two sites and two flavors it gives wrong numbers (both proved).
* C83: Partial only because the code violates the claim in one function: count_valid_vertex_pair writes outside of a vector that is only reserved as soon as one vertex is counted, which is proved. Laws of types, states and times are proved without and with a window. pick_up_itime_vertices returns for streams that hit every position again and again, which almost every stream does.
* C84: Partial: shift invariance holds if the unit vectors that point to the vertices do not add up to zero; otherwise it fails (witness with four vertices). Real numbers for doubles; atan2 is the argument of a complex number.
* C85: Partial: at least one flavour is needed (without one an assert fails) and positions must be convertible to a bin number (C49). Bins without samples have no mean (0/0). Exact real arithmetic.
* C86: Partial: holds for a list of an even number of numbers. An odd number reuses the previous second type or an unset variable, a word counts as type 0, and pairs in the wrong order, of one type, or with a density-density type are taken although their insertion fails an assert or throws.
* C87: Partial: permutation(N,k) is 1 instead of 0 for k >= N+2 because the first factor wraps around.
* C88: Assumptions as in C80 and C76 (C77 for complex weights): weights bounded away from zero up to max_order. The random numbers of each process are independent and uniform; those of different processes need not be independent of each other. collect_results pools the records of all processes. C88_stopped_violation: a run stopped before the first record reaches the post-processing without means. C88_help: with help requested nothing is run and nothing is written.
* C92: Fails in the last line: a file cut after its four indices is accepted with the value of the grid point before (proved for every complete Hermitian file). Undefined if the file ends before the first line of data is complete. All other cuts and garbled words are proved to be refused.
* C93: Fails in the last word: a file cut there is accepted, and the last type gets the destination of the type before, a move that nothing undoes (proved for every complete file with at least two types). A missing or empty file, or one that ends before its first line is complete, makes the code use variables without a value; a file that does not start with a number counts as without moves. Every other cut or garbled word is proved to be refused, and from the first complete line on every variable has a value.

Partial for other reasons:

* C05: M, sign and weight proved for all histories; the trial ratio misses the trials named in C03
* C74: Missing because the code violates it: an admissible trial that restores the field a vertex had at the start of the batch, other than that of a vertex inserted in the batch, aborts in the debug build (C74_debug_trial characterises these trials, C74_debug_aborts is a witness in which the release build returns the right ratio). The comparison announced as a check of the stored inverse never looks at its entries (C74_check_blind): a wrong inverse passes and is silently replaced. During a batch the check accepts exactly the matrices whose mean squared error is below 1E-5 (C74_check_batch).

## Tests against wrong programs

In a scratch copy the model is edited the way a realistic bug would be, and everything is rebuilt; `seeded/LOG.jsonl` lists
edit, claim and the theorems that failed.  The build stops at the first failing file, so the listed theorems are the first
ones that break (often a helper lemma of the property's theorem), not all of them.

## Axioms (`#print axioms`)

* `propext`, `Classical.choice`, `Quot.sound`: `C01_extension`, `C02_fast_formula`, `C02_evalGij`, `C03_trial_ratio_partial`, `C03_flavor_add`, `C03_flavor_remove`, `C03_flavor_add_remove_partial`, `C03_perform_add_remove_violation`, `C03_half_way_zero`, `C03_half_way_violation`, `C04_update_matrix`, `C04_batch_start`, `C05_M_and_weight`, `C05_trial_weight_ratio_partial`, `C05_compute_weight`, `C05_compute_M`, `C05_recompute`, `C05_recompute_refuses`, `C05_compute_f_prod`, `C06_remove`, `C07_reject_restores`, `C07_no_trace`, `C07_other_trials_throw`, `C08_vertex_list`, `C08_finish`, `C08_runs`, `C09_distinct`, `C09_never_reused`, `C10_finish_partial`, `C10_violation`, `C11_inc_detRatioUp`, `C11_inc_inverseUp`, `C11_src_detRatioUp`, `C11_src_inverseUp2`, `C11_src_inverseUpBlocks`, `C11_missing`, `C12_inc_detRatioDownLast`, `C12_inc_inverseDownLast`, `C12_inc_inverseDownLast_refuses`, `C12_src_detRatioDown`, `C12_src_inverseDown`, `C12_src_inverseDown_refuses`, `C12_inc_inverseDownRC`, `C13_inc_detRatioDownRC`, `C14_swap_to_end`, `C14_matrix_swaps`, `C15_inc_replace_partial`, `C15_src_detRatioReplace_partial`, `C15_src_inverseReplace_partial`, `C15_inc_replace_violation`, `C15_src_inverseReplace_violation_size`, `C15_src_inverseReplace_violation_value`, `C16_inc_detRatioLastRow`, `C16_inc_inverseLastRow`, `C16_inc_detRatioLastCol`, `C16_inc_inverseLastCol`, `C16_src_detRatioReplaceRow`, `C16_src_replaceRow_partial`, `C17_diag_ratio`, `C17_diag_inverse`, `C18_safeDet`, `C18_safeInv`, `C18_determinant_members`, `C18_invert`, `C19_calls`, `C19_call`, `C19_defined`, `C19_start`, `C19_table`, `C19_determinant`, `C19_gemm`, `C19_copyBlock`, `C19_bound_violation`, `C20_comb_sort_partial`, `C20_unique`, `C21_sign`, `C21_diverges`, `C22_clusters`, `C23_partition`, `C23_chains_partial`, `C24_histories_partial`, `C24_from_list_partial`, `C24_rebuild`, `C24_replace_many_violation`, `C24_replace_many_witness`, `C24_singular_rest_violation`, `C24_singular_rest_witness`, `C24_past_end_violation`, `C24_past_end_witness`, `C25_reject_partial`, `C25_impossible_removal_violation`, `C25_impossible_removal_witness`, `C25_impossible_exchange_violation`, `C25_impossible_exchange_witness`, `C25_impossible_exchange_debug`, `C26_second_trial_debug`, `C26_second_trial_partial`, `C26_second_trial_violation`, `C26_second_trial_witness`, `C26_no_trial_partial`, `C26_no_trial_violation`, `C26_perform_violation`, `C26_perform_witness`, `C27_in_step_partial`, `C27_rejected_duplicate_violation`, `C27_accepted_duplicate_violation`, `C27_rejected_duplicate_debug`, `C27_accepted_duplicate_debug`, `C28_two_flavors`, `C28_one_flavor`, `C28_refused`, `C28_decoupling`, `onsite_usable`, `C29_in_range`, `C29_total`, `C29_file`, `C30_round_trip_partial`, `C30_same_partial`, `C30_written`, `C30_garbled`, `C30_violation`, `C31_violation`, `C31_free_time_partial`, `C32_distinct`, `C32_returns`, `C32_diverges`, `C32_uniform`, `C33_mymod`, `C33_negative_multiple`, `C34_normalised`, `C34_symmetric`, `C34_maximum`, `C34_prefactors`, `C34_rejection`, `C34_law`, `C35_time_in_window`, `C35_window_reached`, `C36_pairs`, `C36_no_pair`, `C37_acceptance`, `C37_insertion_draw`, `C37_detailed_balance`, `C37_pairs`, `C38_max_order`, `C38_within_update`, `C39_spin_flip`, `C39_shift`, `C39_multiset`, `C40_counts_partial`, `C40_violation`, `C41_decision`, `C41_loop`, `C41_built_object`, `C41_moves_partial`, `C41_no_effect`, `C41_violation`, `C42_operators`, `C42_times`, `C42_times_small`, `C42_flavors`, `antiperiodic_exists`, `C43_interpolate`, `C43_outside`, `C44_spline`, `C44_deriv_partial`, `C44_deriv_violation`, `C44_unique`, `C44_computes`, `C45_scalar`, `C45_array`, `C45_weights`, `C45_empty_violation`, `C45_small_buffer`, `C46_reference`, `C46_optimised`, `C46_agree`, `C47_bin`, `C47_stau`, `measureDensities_spec`, `C48_round_trip`, `C49_one_bin`, `C49_histogram_partial`, `C49_rebin`, `C49_rebin_zero`, `C49_rebin_cutoff`, `C49_orders`, `C49_max_index`, `C49_top_index`, `C49_flat`, `C49_max`, `C49_constructor_violation`, `C49_far_violation`, `C50_rates`, `C51_fraction`, `C52_together`, `C52_no_deadlock`, `C52_ends`, `C52_stop`, `C52_bounded`, `C53_updates_never_fail`, `C53_returned_ratio`, `C53_solver_updates`, `C54_involution_partial`, `C54_violation`, `C55_single_partial`, `C55_each_partial`, `C55_violation`, `C56_read`, `C56_total`, `C56_reject`, `C56_missing`, `C56_accept`, `C56_two_points_violation`, `C56_no_lines_violation`, `C56_natural`, `C57_wick_partial`, `C57_wick_real`, `C57_complex_violation`, `C57_phase_violation`, `postBinning_spec`, `C58_binning`, `C59_violation`, `C60_full_determinant`, `C60_from_list`, `C61_matrix`, `C61_frequencies`, `C61_coefficients`, `C62_updates_return`, `C62_fair`, `C63_stationary`, `C63_detailed_balance`, `C63_objects`, `C64_stationary`, `C64_probability`, `C64_normalised`, `C64_objects`, `C64_table`, `C65_rate_partial`, `C65_shift_violation`, `C66_record`, `C66_wick`, `C67_law`, `C67_sign`, `C67_density`, `C67_self_energy`, `C67_ratio`, `C67_recorded`, `C67_density_complex_partial`, `C67_complex_violation`, `C68_ratio`, `C68_inverse_partial`, `C68_singular_iff`, `C68_row_col2`, `C68_violation`, `C68_row_col2_violation`, `C68_successive_partial`, `C68_successive_empty`, `C68_single_throws`, `C68_single`, `C68_safe`, `C68_consistent_partial`, `C68_refused`, `C69_ordered`, `C69_exchanged`, `C69_orders_differ`, `C69_generate_indices`, `C69_generate_indices_ub`, `C70_law`, `C70_returns`, `C70_zero`, `C70_bound_needed`, `C70_pair_distance`, `C71_form`, `C71_law`, `C71_drawn_types`, `C71_pair_density`, `C71_density_throws`, `C71_not_ascending`, `C72_converge`, `C72_limit`, `C72_stuck`, `C72_bounded_below`, `C72_stuck_case`, `C73_sign`, `C73_rate`, `C73_density`, `C73_self_energy`, `C73_ratio`, `C73_self_energy_ratio`, `C73_rate_density`, `C73_rate_self_energy`, `C73_rate_ratio`, `C73_rate_self_energy_ratio`, `C74_debug_equals_release_partial`, `C74_debug_trial`, `C74_check_accepts`, `C74_check_iff`, `C74_sign_exact`, `C74_check_batch`, `C74_check_blind`, `C74_debug_aborts`, `C75_lu_product`, `C75_lu_product_empty`, `C75_phase`, `C75_as_product`, `C75_as_product_sectors`, `C76_archive`, `C77_self_energy`, `C77_self_energy_real`, `C78_recorded`, `C78_read_back`, `C78_legendre_missing`, `C79_same_chain`, `C79_same_measurements`, `C79_green`, `C79_green_check_detects`, `C80_onsite`, `C80_file`, `C80_parameters`, `C80_hubbard`, `C80_green`, `C80_green_defined`, `C80_ready`, `C80_runs`, `C80_archive`, `C80_total`, `C80_refused`, `C80_legendre_violation`, `C81_only_checks`, `C81_only_checks_sectors`, `C81_same_run`, `C81_same_run_sectors_partial`, `C81_emptied_violation`, `C81_empty_list_violation`, `C82_numbers`, `C82_conserved`, `C82_valid_pairs`, `C82_pairs_needed`, `C82_order_ub_violation`, `C82_order_value_violation`, `C83_types`, `C83_generate`, `C83_generate_law`, `C83_generate_pair`, `C83_pick`, `C83_pick_law`, `C83_pick_pair`, `C83_count_violation`, `C83_window_law`, `C84_arc`, `C84_order`, `C84_shift`, `C84_smallest`, `C84_shift_violation`, `C85_cutoff`, `C85_mean`, `C85_bounds_partial`, `C85_adapt`, `C85_report`, `C85_no_flavor_violation`, `C85_counters`, `C85_counters_reset`, `C86_pairs`, `C86_refused`, `C86_odd_violation`, `C86_word_violation`, `C86_useless_violation`, `C86_same_violation`, `C87_permutation_partial`, `C87_identity`, `C87_order`, `C88_pooled`, `C88_program`, `C88_self_energy`, `C88_stopped_violation`, `C88_help`, `C89_sign`, `C89_archive`, `C89_self_energy`, `C89_program`, `C89_program_self`, `C89_density_seen`, `C89_density_blind`, `C90_green`, `C90_weight`, `C90_sum`, `C90_sign`, `C90_program`, `C90_converges`, `C91_weight`, `C91_sum`, `C91_limit`, `C91_order`, `C91_density`, `C91_products`, `C91_atom`, `C91_onsite`, `C91_positive`, `C91_green`, `C91_green_time`, `C91_program`, `C92_text`, `C92_incomplete_partial`, `C92_index_partial`, `C92_stale`, `C92_cut_violation`, `C92_empty_violation`, `C92_first_line_violation`, `C93_text`, `C93_incomplete_partial`, `C93_defined`, `C93_cut_violation`, `C93_start_violation`, `C93_refused_partial`, `C94_weight`, `C94_real`, `C94_self_energy`, `C94_green`, `C94_onsite`, `C94_program`, `C95_weight`, `C96_partition`, `C96_partition_real`, `C97_density`, `C97_density_real`, `C97_mean`, `C97_product`, `C97_square`, `C97_product_same`, `C98_self_energy`, `C98_legendre`, `C99_dyson`, `C99_vertices`, `C99_bins`, `C99_polynomials`, `C99_written`, `C99_reconstructed`, `C99_archive`, `C100_green`, `C100_partition`, `C100_density`, `C100_product`, `C100_product_same`, `C100_square`, `C100_reconstructed`, `C100_archive`, `C100_mean`, `C101_green`, `C101_densities`, `C101_product`, `C101_product_same`, `C102_size`, `C102_order`, `C102_fine`, `C102_program`, `C103_terms`, `C103_average`, `C103_greens`, `C103_product`, `C103_green`, `C103_program`, `C104_double`, `C104_density`, `C104_order`, `C104_sigma`, `C104_apart`, `C104_sigma_apart`, `C105_half`, `C105_density`, `C105_order`, `C106_model`, `C106_density`, `C106_green`, `C107_error`, `C107_green`, `C107_densities`, `C107_half`, `C107_product`, `C107_product_table`, `C107_product_same`, `C108_density`, `C108_pair`, `C108_written`, `C108_product`, `C109_call`, `C109_run`, `C109_simulation`

* `propext`, `Quot.sound`: `C16_src_replaceRow_violation`, `C20_empty_violation`, `C41_moves_violation`, `C49_clear`, `C51_measure`, `C51_records`, `C87_permutation_violation`, `C87_remove`

* `propext`: `C23_violation`

{"id": "C01", "title": "Solve always stops within MaxIter outer iterations", "statement": "chase::Solve returns after at most GetMaxIter() outer iterations (filter/QR/RR/residual/lock rounds), and stops before that bound only when nev eigenpairs have been locked.", "quantifier": "every configuration, every backend behaviour (arbitrary Ritz values and residuals returned in every round)", "why_tests_cant": "The bound must hold for every sequence of answers the numerical kernels can give; a test only drives a handful of matrices.", "anchors": ["algorithm/algorithm.inc: Algorithm::solve", "algorithm/configuration.hpp: GetMaxIter"]}
{"id": "C02", "title": "Search-space accounting", "statement": "At the start of every outer iteration the number of locked pairs plus the number of unconverged pairs equals nev+nex, at most nev pairs are ever locked, and the numbers passed to Lock() add up to the locked count.", "quantifier": "every configuration, every number of iterations, every sequence of residuals", "why_tests_cant": "An inductive invariant over an unbounded history of locking decisions.", "anchors": ["algorithm/algorithm.inc: Algorithm::solve", "algorithm/algorithm.inc: Algorithm::locking", "ChASE-MPI/chase_mpi.hpp: Lock"]}
{"id": "C03", "title": "Locked pairs are frozen", "statement": "Once a pair has been locked, no later outer iteration changes its Ritz value, its residual or the column of V that holds its vector (until the final sort).", "quantifier": "every iteration and every locked position, every backend answer", "why_tests_cant": "A frame property over all later iterations; tests see only the final values.", "anchors": ["algorithm/algorithm.inc: Algorithm::solve", "algorithm/algorithm.inc: Algorithm::calc_degrees", "algorithm/algorithm.inc: Algorithm::locking"]}
{"id": "C04", "title": "Returned eigenvalues are ascending", "statement": "When Solve returns, GetRitzv()[0..nev) is in ascending order and is a rearrangement of the values held when the iteration loop ended.", "quantifier": "every nev >= 1 and every list of values, converged or not", "why_tests_cant": "Sortedness and permutation for every input list.", "anchors": ["algorithm/algorithm.inc: Algorithm::solve (final sort, lines 559-567)"]}
{"id": "C05", "title": "Each returned eigenvalue stays with its own vector", "statement": "After the final sort, column i of V is the vector that belonged to the value now in GetRitzv()[i] (same for the reordering done when degrees are optimised).", "quantifier": "every backend, every list of values, every nev", "why_tests_cant": "The pairing must survive every possible sequence of exchanges; tests that check residuals on one already sorted spectrum never exchange anything.", "anchors": ["algorithm/algorithm.inc: Algorithm::solve", "algorithm/algorithm.inc: swap_kj", "ChASE-MPI/impl/chase_mpidla_blaslapack_seq.hpp: Swap", "ChASE-MPI/impl/chase_mpidla_blaslapack_seq_inplace.hpp: Swap", "ChASE-MPI/impl/chase_mpidla.hpp: Swap", "ChASE-MPI/impl/chase_mpidla_cuda_seq.hpp: Swap"]}
{"id": "C06", "title": "Each returned residual belongs to its eigenpair", "statement": "When Solve returns, GetResid()[i] is the residual of the pair (GetRitzv()[i], column i of V).", "quantifier": "every list of values and residuals at loop exit", "why_tests_cant": "Only fails when the final sort actually exchanges two pairs, which needs particular convergence histories.", "anchors": ["algorithm/algorithm.inc: Algorithm::solve (final sort)", "ChASE-MPI/chase_mpi.hpp: GetResid"]}
{"id": "C07", "title": "Only converged or stagnating pairs are locked", "statement": "A pair is locked only if its residual is at most the tolerance, or its residual did not decrease with respect to the best earlier one; pairs are locked in ascending order of Ritz value.", "quantifier": "every list of Ritz values and residuals, including unsorted lists and ties", "why_tests_cant": "Depends on the order of values, on ties and on an unstable sort; all orders must be covered.", "anchors": ["algorithm/algorithm.inc: Algorithm::locking"]}
{"id": "C08", "title": "A failed symmetry check has no side effects", "statement": "If the symmetry check is enabled and fails, Solve returns without touching the vectors, values, residuals or counters; nothing but the check itself is called on the backend.", "quantifier": "every configuration with the check enabled and every backend state", "why_tests_cant": "A non-interference statement about all states.", "anchors": ["algorithm/algorithm.inc: Algorithm::solve (lines 329-356)"]}
{"id": "C09", "title": "The symmetry check never rejects a Hermitian matrix, and rejects every matrix whose skew part is seen by the probe", "statement": "In exact arithmetic checkSymmetryEasy() returns true for every Hermitian H, and returns false whenever (H - H^*) v is nonzero for the probe vector v.", "quantifier": "every dimension, every matrix, every probe vector", "why_tests_cant": "All matrices and all probe vectors.", "anchors": ["ChASE-MPI/impl/chase_mpidla_blaslapack_seq.hpp: checkSymmetryEasy", "ChASE-MPI/impl/chase_mpidla.hpp: checkSymmetryEasy"]}
{"id": "C10", "title": "The filter applies the scaled Chebyshev polynomial of the requested degree to each column", "statement": "After a filter call column j of the search space holds p_d(A) times its former content, d = degrees[j], with p_d(x) = T_d((x-c)/e) / T_d((lambda_1-c)/e), in the buffer the next step reads.", "quantifier": "every matrix, every block of vectors, every ascending list of even degrees >= 2 and every interval with non-zero half width whose normalisation T_i((lambda_1-c)/e) never vanishes (true for every lambda_1 outside the interval)", "why_tests_cant": "Any dimension and any degree list; the double buffering only works for certain parities.", "anchors": ["algorithm/algorithm.inc: Algorithm::filter", "ChASE-MPI/impl/chase_mpidla_blaslapack_seq.hpp: apply", "ChASE-MPI/impl/chase_mpidla_blaslapack_seq.hpp: shiftMatrix"]}
{"id": "C11", "title": "The same holds for the pointer-swapping backends", "statement": "The in-place CPU backend and the single-GPU backend produce, for the same input, the same filtered columns as the two-buffer backend, although they exchange the two buffers after every multiplication.", "quantifier": "every matrix, degree list and number of exchanges", "why_tests_cant": "Relational property between two implementations over all inputs.", "anchors": ["ChASE-MPI/impl/chase_mpidla_blaslapack_seq_inplace.hpp: apply", "ChASE-MPI/impl/chase_mpidla_cuda_seq.hpp: apply", "algorithm/algorithm.inc: Algorithm::filter"]}
{"id": "C12", "title": "Filter work count", "statement": "The number of matrix-vector products reported by a filter call is exactly the sum of the degrees of the columns, and equals the sum of the block sizes passed to HEMM.", "quantifier": "every ascending list of degrees >= 2 whose maximum is the degree argument", "why_tests_cant": "For all degree lists; off-by-one errors appear only for some.", "anchors": ["algorithm/algorithm.inc: Algorithm::filter", "algorithm/performance.hpp: HEMM"]}
{"id": "C13", "title": "The filter leaves the matrix as it found it", "statement": "After a filter call H equals the H before the call (the shift by -c is undone), whatever columns were processed.", "quantifier": "every matrix, every distribution, every shift", "why_tests_cant": "All matrices and distributions.", "anchors": ["algorithm/algorithm.inc: Algorithm::filter", "ChASE-MPI/impl/chase_mpidla_blaslapack_seq.hpp: shiftMatrix", "ChASE-MPI/impl/chase_mpidla_blaslapack.hpp: shiftMatrix"]}
{"id": "C14", "title": "The filter keeps the wanted end and damps the interval", "statement": "In exact arithmetic the filter of degree d maps an eigenvector for lambda_1 to itself, and scales every eigenvector whose eigenvalue lies in [lower, upper] by a factor of absolute value at most 1/|T_d(t)|, t=(lambda_1-c)/e, which is at most 1.", "quantifier": "every degree, every interval lower<upper, every lambda_1 below lower, every eigenvalue in the interval", "why_tests_cant": "A real-analysis statement over a continuum of inputs.", "anchors": ["algorithm/algorithm.inc: Algorithm::filter"]}
{"id": "C15", "title": "The filter never reads past the degree array", "statement": "A filter call reads degrees[] only inside its bounds and never lets the number of unprocessed columns wrap around.", "quantifier": "every configuration accepted by the setters", "why_tests_cant": "Memory safety for every input; the failing configuration (degree 0) is not in the tests.", "anchors": ["algorithm/algorithm.inc: Algorithm::filter (lines 150-155, 171-176)", "algorithm/configuration.hpp: SetDeg", "algorithm/configuration.hpp: SetMaxDeg"]}
{"id": "C16", "title": "Optimised degrees are even, bounded by MaxDeg and ascending", "statement": "After degree optimisation every degree is even and at most MaxDeg, the list is ascending and the returned degree is its maximum; the guard columns get the degree of the last wanted column.", "quantifier": "every list of Ritz values and residuals, every configuration reachable through the setters", "why_tests_cant": "Universal over real-valued inputs.", "anchors": ["algorithm/algorithm.inc: Algorithm::calc_degrees", "algorithm/configuration.hpp: SetMaxDeg"]}
{"id": "C17", "title": "Degree optimisation reorders pairs as whole units", "statement": "The reordering by degree moves Ritz value, residual, last residual and vector together and loses or duplicates none of them; locked pairs are not touched.", "quantifier": "every list, any number of exchanges, any number of locked pairs", "why_tests_cant": "Permutation invariants of a nested exchange loop.", "anchors": ["algorithm/algorithm.inc: Algorithm::calc_degrees (lines 56-65)"]}
{"id": "C18", "title": "The optimised degree is large enough", "statement": "Unless capped by MaxDeg, the degree chosen for an unconverged pair whose Ritz value lies outside the damped interval satisfies resid / rho^degree <= tol, with rho the Chebyshev growth factor of the pair.", "quantifier": "every Ritz value outside the interval, every residual and tolerance", "why_tests_cant": "Real-analysis statement (logarithms, ceiling).", "anchors": ["algorithm/algorithm.inc: Algorithm::calc_degrees (lines 35-42)"]}
{"id": "C19", "title": "Configuration setters behave as documented", "statement": "Every setter changes only its own parameter; SetDeg and SetMaxDeg store the requested value rounded up to an even number; N, nev, nex never change; defaults are the documented ones and are even where required.", "quantifier": "every sequence of setter calls", "why_tests_cant": "All histories of setter calls.", "anchors": ["algorithm/configuration.hpp: ChaseConfig"]}
{"id": "C20", "title": "The spectral upper bound dominates all Lanczos Ritz values", "statement": "The upper bound handed to the filter is at least the absolute value of every Ritz value of every Lanczos run plus the last off-diagonal of that run.", "quantifier": "every number of runs, every tridiagonal spectrum", "why_tests_cant": "All spectra.", "anchors": ["ChASE-MPI/chase_mpi.hpp: Lanczos", "algorithm/algorithm.inc: Algorithm::lanczos"]}
{"id": "C21", "title": "The Lanczos recurrence builds an orthonormal basis that tridiagonalises H", "statement": "In exact arithmetic, as long as no off-diagonal vanishes, the vectors produced by the Lanczos loop are orthonormal and satisfy H v_k = beta_{k-1} v_{k-1} + alpha_k v_k + beta_k v_{k+1} with alpha, beta the stored diagonals.", "quantifier": "every Hermitian matrix, every start vector, every number of steps", "why_tests_cant": "Induction over the steps of a three-term recurrence.", "anchors": ["ChASE-MPI/impl/chase_mpidla_blaslapack_seq.hpp: mLanczos", "ChASE-MPI/impl/chase_mpidla.hpp: mLanczos"]}
{"id": "C22", "title": "Density-of-states start values are well formed", "statement": "After the density-of-states step the initial Ritz values of all nev+nex columns are written, the last one is the lower bound, all others are Lanczos Ritz values, and every array access is inside its array.", "quantifier": "every list of Ritz values and weights returned by Lanczos", "why_tests_cant": "All spectra, including those where the cumulative density crosses immediately or never.", "anchors": ["algorithm/algorithm.inc: Algorithm::lanczos (lines 226-321)"]}
{"id": "C23", "title": "Interspersing the Lanczos vectors only permutes columns", "statement": "Distributing the Lanczos vectors over the search space exchanges columns inside [0, nev+nex) together with their start values and loses none.", "quantifier": "every number of extracted vectors idx and every nev+nex >= idx", "why_tests_cant": "Universal index arithmetic.", "anchors": ["algorithm/algorithm.inc: Algorithm::lanczos (lines 307-313)"]}
{"id": "C24", "title": "QR variant selection and fallback", "statement": "When CholQR is disabled Householder QR is used and no Cholesky factorisation is attempted; otherwise exactly one Cholesky variant is selected by the condition estimate, and Householder QR runs if and only if that variant reports failure.", "quantifier": "every condition estimate (including NaN), every threshold, every environment setting, every factorisation outcome", "why_tests_cant": "All combinations of config, environment and outcome.", "anchors": ["ChASE-MPI/chase_mpi.hpp: QR"]}
{"id": "C25", "title": "Cholesky QR yields an orthonormal basis of the same space", "statement": "In exact arithmetic, when the Cholesky factorisations succeed, cholQR1, cholQR2 and shiftedcholQR2 replace the columns by orthonormal columns with the same span.", "quantifier": "every matrix with linearly independent columns, every shift", "why_tests_cant": "Linear algebra over all matrices.", "anchors": ["ChASE-MPI/impl/chase_mpidla_blaslapack_seq.hpp: cholQR1, cholQR2, shiftedcholQR2", "ChASE-MPI/impl/chase_mpidla.hpp: cholQR1, cholQR2, shiftedcholQR2"]}
{"id": "C26", "title": "Orthogonalisation never alters locked vectors", "statement": "After QR the locked columns hold exactly what they held before, and both internal buffers agree on the columns the following steps read from either.", "quantifier": "every locked count, every buffer content, every QR variant", "why_tests_cant": "Frame property over all buffer contents.", "anchors": ["ChASE-MPI/chase_mpi.hpp: QR", "ChASE-MPI/impl/chase_mpidla_blaslapack_seq.hpp: lockVectorCopyAndOrthoConcatswap", "ChASE-MPI/impl/chase_mpidla.hpp: lockVectorCopyAndOrthoConcatswap", "ChASE-MPI/impl/chase_mpidla_blaslapack_seq_inplace.hpp: lockVectorCopyAndOrthoConcatswap"]}
{"id": "C27", "title": "Rayleigh-Ritz returns orthonormal Ritz vectors that diagonalise the projected problem", "statement": "In exact arithmetic, from orthonormal columns Q the step returns orthonormal columns with the same span whose projected matrix V^* H V is diagonal with the returned values.", "quantifier": "every Hermitian H, every orthonormal block, every eigen-decomposition the dense solver may return", "why_tests_cant": "Linear algebra over all matrices.", "anchors": ["ChASE-MPI/impl/chase_mpidla_blaslapack_seq.hpp: RR", "ChASE-MPI/impl/chase_mpidla_blaslapack_seq_inplace.hpp: RR", "ChASE-MPI/impl/chase_mpidla.hpp: RR"]}
{"id": "C28", "title": "A small residual certifies an eigenvalue", "statement": "For every returned unit vector and value, H has an eigenvalue within the reported residual of the reported value; every Ritz value lies between the smallest and the largest eigenvalue of H.", "quantifier": "every Hermitian H, unit vector and value", "why_tests_cant": "Spectral theorem, all matrices.", "anchors": ["ChASE-MPI/impl/chase_mpidla_blaslapack_seq.hpp: Resd", "ChASE-MPI/impl/chase_mpidla.hpp: Resd"]}
{"id": "C29", "title": "numroc counts the owned indices", "statement": "The number of rows (columns) a process reports for a block-cyclic distribution is the number of global indices mapped to it, and these numbers add up to N over the processes.", "quantifier": "every N, block size, process count, source process and process", "why_tests_cant": "All parameter combinations.", "anchors": ["ChASE-MPI/chase_mpi_properties.hpp: numroc"]}
{"id": "C30", "title": "Block-cyclic local/global index maps are inverse to each other", "statement": "The offset/length tables of a process list each owned global index exactly once, in order, at consecutive local positions, and no foreign index.", "quantifier": "every N, block size, process count, source process with at least one owned block", "why_tests_cant": "All parameter combinations.", "anchors": ["ChASE-MPI/chase_mpi_properties.hpp: block-cyclic constructor (331-378)", "ChASE-MPI/chase_mpi_properties.hpp: get_offs_lens"]}
{"id": "C31", "title": "Block distribution covers the matrix exactly once", "statement": "For the block distribution every global row (column) belongs to exactly one process row (column), local sizes are as reported and no size wraps around.", "quantifier": "every N and every process grid", "why_tests_cant": "Holds only under a relation between N and the grid; all pairs must be considered.", "anchors": ["ChASE-MPI/chase_mpi_properties.hpp: block constructors (560-814, 843-1086)"]}
{"id": "C32", "title": "Process grid coordinates", "statement": "Rank and grid coordinates determine each other for row-major and column-major grids; two processes share the row (column) communicator iff they share the row (column) coordinate.", "quantifier": "every grid shape and rank", "why_tests_cant": "All shapes.", "anchors": ["ChASE-MPI/chase_mpi_properties.hpp: create2DGrid"]}
{"id": "C33", "title": "The distributed multiplication equals the global one", "statement": "The per-process multiplications followed by the sum over the communicator give every process its part of alpha*H*V+beta*W, in both directions, and the result does not depend on how the sum is ordered.", "quantifier": "every grid, every distribution, every matrix, every alpha and beta, every reduction order", "why_tests_cant": "All process counts and reduction schedules.", "anchors": ["ChASE-MPI/impl/chase_mpidla.hpp: apply", "ChASE-MPI/impl/chase_mpidla_blaslapack.hpp: apply"]}
{"id": "C34", "title": "The distributed shift is the global shift", "statement": "Shifting on all processes adds the value to each global diagonal entry exactly once and to no other entry.", "quantifier": "every distribution and matrix", "why_tests_cant": "All distributions.", "anchors": ["ChASE-MPI/impl/chase_mpidla_blaslapack.hpp: shiftMatrix", "ChASE-MPI/impl/chase_mpidla_mgpu.hpp: shiftMatrix", "ChASE-MPI/chase_mpi_properties.hpp: get_offs_lens"]}
{"id": "C35", "title": "Scattering and gathering vectors are inverse", "statement": "Distributing a block of vectors over the processes and collecting it again gives the original block.", "quantifier": "every distribution and block of vectors", "why_tests_cant": "All distributions.", "anchors": ["ChASE-MPI/impl/chase_mpidla.hpp: preApplication", "ChASE-MPI/impl/chase_mpidla.hpp: collecRedundantVecs"]}
{"id": "C36", "title": "Redistribution between row and column layout moves every entry to its owner", "statement": "The run tables used to redistribute vectors between the column communicator and the row communicator layouts send every global index from its owner in one layout to its owner in the other, to the right local position.", "quantifier": "every N, block sizes, grid shapes and source processes", "why_tests_cant": "All parameter combinations; non-zero source processes are not tested.", "anchors": ["ChASE-MPI/impl/chase_mpidla.hpp: constructor (141-236)", "ChASE-MPI/impl/chase_mpidla.hpp: B2C", "ChASE-MPI/impl/chase_mpidla.hpp: C2B"]}
{"id": "C37", "title": "Reading a distributed Hamiltonian assembles the matrix in the file", "statement": "After the parallel read every process holds the entries of the file that its distribution assigns to it; writing and reading back gives the same matrix.", "quantifier": "every N, every grid, every distribution", "why_tests_cant": "All distributions.", "anchors": ["ChASE-MPI/chase_mpi_properties.hpp: readHamiltonianBlockDist", "ChASE-MPI/chase_mpi_properties.hpp: readHamiltonianBlockCyclicDist", "ChASE-MPI/chase_mpi_properties.hpp: writeHamiltonianBlockDist"]}
{"id": "C38", "title": "Distributed Rayleigh quotient and residual equal the global ones", "statement": "The projected matrix and the squared residuals summed over the row communicator equal those of the assembled vectors and matrix.", "quantifier": "every distribution, every matrix and vectors", "why_tests_cant": "All distributions.", "anchors": ["ChASE-MPI/impl/chase_mpidla.hpp: RR", "ChASE-MPI/impl/chase_mpidla.hpp: Resd", "ChASE-MPI/impl/chase_mpidla_blaslapack.hpp: RR", "ChASE-MPI/impl/chase_mpidla_blaslapack.hpp: Resd"]}
{"id": "C39", "title": "Performance counters count what happened", "statement": "After a solve the reported iteration count is the number of outer iterations, the reported number of filtered vectors is the sum of the HEMM block sizes, and the recorded block sizes are those of the Rayleigh-Ritz calls; Start resets all of them.", "quantifier": "every run of the solver, every sequence of backend answers, repeated solves", "why_tests_cant": "All execution histories.", "anchors": ["algorithm/performance.hpp: ChasePerfData", "algorithm/performance.hpp: PerformanceDecorator"]}
{"id": "C40", "title": "Performance clocks are balanced", "statement": "After a solve every clock has been stopped exactly as often as it was started and never stopped before being started; printing the result is repeatable.", "quantifier": "every run of the solver; every number of print calls", "why_tests_cant": "All execution histories.", "anchors": ["algorithm/performance.hpp: start_clock, end_clock, calculateTimings, print", "algorithm/performance.hpp: PerformanceDecorator"]}
{"id": "C41", "title": "Eigenvectors end up in the user's buffer", "statement": "After Solve the first nev columns of the array V handed in by the user contain the computed vectors.", "quantifier": "every backend, every number of outer iterations, repeated solves", "why_tests_cant": "Depends on the parity of the number of buffer exchanges, hence on the convergence history.", "anchors": ["ChASE-MPI/impl/chase_mpidla_blaslapack_seq_inplace.hpp: RR, apply, Swap", "ChASE-MPI/impl/chase_mpidla_blaslapack_seq.hpp: RR", "ChASE-MPI/impl/chase_mpidla_cuda_seq.hpp: End", "ChASE-MPI/chase_mpi.hpp: constructor docs (98-102)"]}
{"id": "C42", "title": "Internal buffers are large enough", "statement": "Every backend write stays inside the buffers the backend allocated for nev+nex vectors.", "quantifier": "every N, nev, nex", "why_tests_cant": "All size combinations.", "anchors": ["ChASE-MPI/impl/chase_mpidla_blaslapack_seq.hpp: constructor, initVecs", "ChASE-MPI/chase_mpi.hpp: constructor (111-122)", "ChASE-MPI/chase_mpi_matrices.hpp: ChaseMpiMatrices"]}
{"id": "C43", "title": "C interface life cycle", "statement": "For every sequence of initialise/solve/finalise calls on the C interface, a solve is executed on a live solver, memory is released exactly once and different scalar types do not interfere.", "quantifier": "every call sequence", "why_tests_cant": "All histories.", "anchors": ["interface/chase_c.cpp: ChASE_SEQ_Init, ChASE_SEQ_Finalize, ChASE_SEQ_Solve, ChASE_DIST"]}
{"id": "C44", "title": "C interface options are decoded as documented", "statement": "The C solve call configures tolerance, degree, optimisation, approximation mode and QR mode from its arguments and from nothing else; unknown letters select the documented default.", "quantifier": "every argument combination and every prior configuration", "why_tests_cant": "All arguments and prior states.", "anchors": ["interface/chase_c.cpp: ChASE_SEQ_Solve (159-200)", "interface/chase_c.cpp: ChASE_DIST_Solve (441-482)"]}
{"id": "C45", "title": "Symmetrising a triangle yields a Hermitian matrix and keeps the chosen triangle", "statement": "symOrHermMatrix(uplo) leaves the chosen triangle unchanged and makes the matrix Hermitian.", "quantifier": "every matrix, both triangles, real and complex", "why_tests_cant": "All matrices.", "anchors": ["ChASE-MPI/impl/chase_mpidla_blaslapack_seq.hpp: symOrHermMatrix", "ChASE-MPI/impl/chase_mpidla.hpp: symOrHermMatrix"]}
{"id": "C46", "title": "GPU reductions sum every element once", "statement": "The block reduction returns the sum (maximum) of all thread values and the strided residual kernels visit every vector element exactly once.", "quantifier": "every block size and vector length", "why_tests_cant": "All lengths.", "anchors": ["ChASE-MPI/kernels/shift.cu: cuda_sum_reduce, cuda_max_reduce, residual kernels"]}
{"id": "C47", "title": "GPU copy and shift kernels touch exactly the intended entries", "statement": "The tiled matrix copy writes every entry of the requested region exactly once and nothing else; the diagonal shift kernel adds the shift to every diagonal entry exactly once.", "quantifier": "every matrix size and leading dimension", "why_tests_cant": "Tile boundaries for all sizes, including multiples of the super block.", "anchors": ["ChASE-MPI/kernels/shift.cu: lacpy kernels, t_lacpy_gpu, shift kernels"]}
{"id": "C48", "title": "Several Lanczos runs in one batch do not influence each other", "statement": "Running numvec Lanczos recurrences in one batch gives for each run the same coefficients as running it alone.", "quantifier": "every matrix, every set of start vectors, every number of runs", "why_tests_cant": "Relational property over all batches.", "anchors": ["ChASE-MPI/impl/chase_mpidla_cuda_seq.hpp: mLanczos, axpy_batch", "ChASE-MPI/impl/chase_mpidla_blaslapack_seq.hpp: mLanczos", "ChASE-MPI/impl/chase_mpidla_blaslapack.hpp: axpy_batch"]}
{"id": "C49", "title": "All processes follow the same control flow", "statement": "If the backend returns the same Ritz values, residuals and bounds on all processes, then all processes issue the same sequence of collective operations and lock the same pairs, so no process waits for ever.", "quantifier": "every number of processes and every sequence of backend answers", "why_tests_cant": "All executions of all processes.", "anchors": ["algorithm/algorithm.inc: Algorithm::solve", "ChASE-MPI/impl/chase_mpidla.hpp: collective calls"]}
{"id": "C50", "title": "What solve returns are certified Ritz pairs of the unchanged matrix", "statement": "After a solve the first nev columns in the user's array are orthonormal, each returned value is the Rayleigh quotient of its column, each reported residual is the norm of H v - lambda v for a returned pair, so H has an eigenvalue within it, and H is what it was before.", "quantifier": "every Hermitian matrix, every reachable configuration, every start block, every number of iterations; exact arithmetic", "why_tests_cant": "Composition of filter, QR, Rayleigh-Ritz, residual and locking over every history.", "anchors": ["algorithm/algorithm.inc: Algorithm::solve", "ChASE-MPI/impl/chase_mpidla_blaslapack_seq.hpp", "ChASE-MPI/chase_mpi.hpp"]}
{"id": "C51", "title": "A solve from approximate vectors is always defined and does some work", "statement": "With approximation mode on, solve never leaves its arrays, divides indices by zero or underflows an unsigned counter, for any answers of the backend, and runs at least one outer iteration.", "quantifier": "every configuration with N >= 2, nev >= 1, degree, extra degree and Lanczos steps at least 1 and a maximal degree of at least 2, every backend behaviour (arbitrary Ritz values and residuals; with degree optimisation such that the degree formula gives a number)", "why_tests_cant": "All backend answers and all histories.", "anchors": ["algorithm/algorithm.inc: Algorithm::solve, filter, locking, calc_degrees"]}
{"id": "C52", "title": "The density-of-states step leaves Ritz vectors in the search space", "statement": "After the batch of Lanczos runs the first columns of the search space hold the Lanczos basis of the last run, so the vectors combined from them with the tridiagonal eigenvectors are Ritz vectors of that run.", "quantifier": "every Hermitian matrix, every start block, every number of runs and steps", "why_tests_cant": "A wrong start block only slows convergence down; it must hold for every matrix and every number of runs.", "anchors": ["ChASE-MPI/impl/chase_mpidla_blaslapack_seq.hpp: mLanczos, LanczosDos", "algorithm/algorithm.inc: Algorithm::lanczos"]}
{"id": "C53", "title": "The upper bound dominates the spectrum", "statement": "The bound computed by the Lanczos step, used as the upper end of the interval the filter damps, is at least the largest eigenvalue of the matrix.", "quantifier": "every Hermitian matrix, every start vector, every number of steps", "why_tests_cant": "All matrices and start vectors; eigenvalues above the bound are amplified instead of damped.", "anchors": ["ChASE-MPI/chase_mpi.hpp: Lanczos", "ChASE-MPI/impl/chase_mpidla_blaslapack_seq.hpp: mLanczos"]}
{"id": "C54", "title": "Approximation mode starts from the user's vectors", "statement": "With approximation mode on, the block the solver starts from is the content of the array V handed over by the user.", "quantifier": "every content of V, every matrix, every configuration", "why_tests_cant": "A solve from other vectors still converges on most inputs; it must hold for every start block.", "anchors": ["ChASE-MPI/chase_mpi.hpp: initVecs", "ChASE-MPI/impl/chase_mpidla_blaslapack_seq.hpp: initVecs", "ChASE-MPI/impl/chase_mpidla_cuda_seq.hpp: initVecs"]}
{"id": "C55", "title": "The result does not depend on the process grid", "statement": "With the same start vectors a distributed solve returns the same Ritz values, residuals and assembled vectors whatever the process grid and the distribution of the matrix.", "quantifier": "every pair of grids and distributions, every matrix, every configuration, every start block; exact arithmetic", "why_tests_cant": "grids and distributions are unbounded and a test compares a few of them on a few matrices", "anchors": ["ChASE-MPI/impl/chase_mpidla.hpp", "ChASE-MPI/impl/chase_mpidla_blaslapack.hpp", "algorithm/algorithm.inc: Algorithm::solve"]}
{"id": "C56", "title": "The result does not depend on the schedule of the processes", "statement": "However the processes interleave between and inside the collective operations of the filter, Rayleigh-Ritz, residual and QR steps, every run ends with the same local data on every process.", "quantifier": "every schedule (interleaving), every number of processes, every data", "why_tests_cant": "the number of interleavings is unbounded and a test sees one of them", "anchors": ["ChASE-MPI/impl/chase_mpidla.hpp: apply, asynCxHGatherC, RR, Resd, hhQR, cholQR1", "algorithm/algorithm.inc: Algorithm::filter"]}
{"id": "C57", "title": "The solver uses a backend only according to the protocol", "statement": "Every solve that returns calls the backend in a fixed order (optional symmetry check, Start, initial vectors, optional QR, Lanczos, then rounds of exchange, shift, multiplications, unshift by the opposite amount, QR, Rayleigh-Ritz, residuals, exchange, Lock, finally exchanges and End) and with sizes and positions inside the block of nev+nex vectors that agree with the number of pairs locked so far.", "quantifier": "every backend behaviour, every configuration, every number of rounds", "why_tests_cant": "a backend author relies on it for all sequences of answers; a test sees one sequence of calls", "anchors": ["algorithm/interface.hpp: Chase", "algorithm/algorithm.inc: Algorithm::solve, filter, lanczos, locking, calc_degrees"]}
{"id": "C58", "title": "Reported operation counts are consistent", "statement": "get_flops reports the documented sum over the rounds plus the filter, and get_filter_flops never exceeds it.", "quantifier": "every recorded history, every N, real and complex scalars", "why_tests_cant": "must hold for all recorded histories", "anchors": ["algorithm/performance.hpp: get_flops, get_filter_flops"]}
{"id": "C59", "title": "GPU random start vectors are complete", "statement": "The random start vectors of the GPU backends have every entry set, each to its own number of the random generators, and nothing else is written.", "quantifier": "every number of values, every schedule of the GPU threads", "why_tests_cant": "all sizes and thread schedules", "anchors": ["ChASE-MPI/kernels/shift.cu: normal kernels, chase_rand_normal", "ChASE-MPI/impl/chase_mpidla_cuda_seq.hpp: initRndVecs", "ChASE-MPI/impl/chase_mpidla_mgpu.hpp: initRndVecs"]}
{"id": "C60", "title": "The multi-GPU backend returns certified Ritz pairs of the unchanged matrix", "statement": "After a solve on the multi-GPU backend every process holds in host memory its block of the original matrix and its rows of the first nev vectors; these are orthonormal, each value is the Rayleigh quotient of its vector and each residual is the norm of H v - lambda v.", "quantifier": "every Hermitian matrix, every process grid and distribution, every configuration, staged and CUDA-aware communication; exact arithmetic", "why_tests_cant": "Which copy of a buffer is up to date depends on the whole history of calls between host and device; a stale copy shows up only for some histories.", "anchors": ["ChASE-MPI/impl/chase_mpidla_mgpu.hpp", "ChASE-MPI/impl/chase_mpidla.hpp", "ChASE-MPI/chase_mpi_matrices.hpp: H2D, D2H, C_comm"]}
{"id": "C61", "title": "The multi-GPU backend returns what the CPU backend returns", "statement": "From the same matrix and the same start vectors the multi-GPU backend and the distributed CPU backend return the same values, residuals and vectors after the same number of rounds.", "quantifier": "every matrix, every process grid, every configuration, both communication variants; exact arithmetic", "why_tests_cant": "A relation between two programs over all inputs.", "anchors": ["ChASE-MPI/impl/chase_mpidla_mgpu.hpp", "ChASE-MPI/impl/chase_mpidla_blaslapack.hpp"]}
{"id": "C62", "title": "A solve does not depend on what earlier solves left behind", "statement": "The values, residuals and vectors returned by a solve are determined by the matrix, the configuration and, in approximation mode, the start vectors; what earlier solves left in the internal buffers, flags and counters of the solver object has no influence.", "quantifier": "every pair of states of the solver object with the same matrix (and start vectors), every configuration", "why_tests_cant": "All histories of solves on one object, in every combination with all inputs.", "anchors": ["algorithm/algorithm.inc: solve", "ChASE-MPI/chase_mpi.hpp: Start, initVecs", "ChASE-MPI/impl/chase_mpidla_blaslapack_seq.hpp", "ChASE-MPI/impl/chase_mpidla.hpp", "ChASE-MPI/impl/chase_mpidla_mgpu.hpp"]}
{"id": "C63", "title": "The filter is run on a proper interval", "statement": "In every round of a solve the polynomial filter damps an interval whose upper end is the bound found by the Lanczos step of this solve, whose lower end lies strictly below it, and it is scaled at a point not above the lower end; so the divisions by half the length of the interval and by the distance of the scaling point from its centre are well defined and the wanted part of the spectrum is not damped.", "quantifier": "every backend, matrix, configuration, start values (random and approximation mode), every round", "why_tests_cant": "The bounds move with the values, residuals and locks of all earlier rounds and, in approximation mode, with whatever values the caller passes.", "anchors": ["algorithm/algorithm.inc: solve (lines 421-462), filter (120-132), lanczos (186-322)"]}
{"id": "C64", "title": "Every round is a step of filtered subspace iteration", "statement": "In every round of a solve of a Hermitian matrix the locked vectors are kept, every other vector is multiplied by an even degree Chebyshev polynomial of the matrix scaled to the interval of the round, and the vectors after the round span the same space as these, if they are independent; without degree optimisation, and in the first round, the degree is that of the configuration (made even, at most the largest allowed).", "quantifier": "every matrix, configuration, start, every round of every solve, every backend and process grid; exact arithmetic", "why_tests_cant": "The filter, the QR factorisation, the Rayleigh-Ritz step, the swaps of locking and the sort by degrees act on offsets that differ in every round; the space they span together cannot be observed by comparing final values.", "anchors": ["algorithm/algorithm.inc: solve (447-560), filter", "ChASE-MPI/chase_mpi.hpp: HEMM, QR, RR, Resd, Lock, Swap", "ChASE-MPI/impl/chase_mpidla_blaslapack_seq.hpp", "ChASE-MPI/impl/chase_mpidla.hpp"]}
{"id": "C65", "title": "A restart from the solution ends after one round", "statement": "If in approximation mode the start vectors of the caller span a space spanned by nev+nex eigenvectors, and the start values are below the spectral bound and the largest of them not below the eigenvalues of these, the solve ends after one round with exactly these eigenvalues in ascending order, orthonormal eigenvectors of them in the array of the caller, and residuals zero.", "quantifier": "every Hermitian matrix, every invariant subspace, every basis of it, every configuration in approximation mode with a non-negative tolerance, every backend and process grid; exact arithmetic", "why_tests_cant": "Sequences of correlated problems rely on it; it has to hold for all matrices and all bases of the space, not for the problems at hand.", "anchors": ["algorithm/algorithm.inc: solve", "ChASE-MPI/chase_mpi.hpp: ChaseMpi, Start", "interface/chase_c.cpp"]}
{"id": "C66", "title": "The search space converges geometrically", "statement": "As long as nothing is locked and degrees are not optimised, every round brings the search space closer to the wanted eigenvectors by at least a factor larger than one, the value of the Chebyshev polynomial at the eigenvalue; the best returned value approaches the eigenvalue with the square of the factor, and no value falls below the smallest eigenvalue.", "quantifier": "every Hermitian matrix, interval, eigenvector below the interval, independent start vectors with a component in its direction, every number of rounds; exact arithmetic", "why_tests_cant": "A rate of convergence for all matrices and all numbers of rounds.", "anchors": ["algorithm/algorithm.inc: solve, filter", "ChASE-MPI/chase_mpi.hpp: HEMM, QR, RR"]}
{"id": "C67", "title": "The estimate of the spectrum never divides by zero", "statement": "The Lanczos runs at the start of a solve divide by no number that is zero.", "quantifier": "every Hermitian matrix, every start vectors (random or the caller's), every number of steps and runs; exact arithmetic", "why_tests_cant": "The divisors are norms of vectors computed from the matrix and the start vectors; a test with random matrices does not meet the matrices and vectors for which they vanish.", "anchors": ["ChASE-MPI/impl/chase_mpidla_blaslapack_seq.hpp: mLanczos", "ChASE-MPI/impl/chase_mpidla_blaslapack_seq_inplace.hpp: mLanczos", "ChASE-MPI/impl/chase_mpidla_cuda_seq.hpp: mLanczos", "ChASE-MPI/impl/chase_mpidla.hpp: mLanczos"]}
{"id": "C68", "title": "A pair whose residual is not a number is not reported as converged", "statement": "If the residual of a pair cannot be computed (it is NaN), Solve does not count the pair among the converged ones and does not end as if it had found all wanted pairs.", "quantifier": "every backend, configuration, start state; every arithmetic, including floating point, in which comparisons with NaN are false", "why_tests_cant": "Tests run on matrices whose residuals are numbers; the claim is about every history in which some are not.", "anchors": ["algorithm/algorithm.inc: locking, solve"]}
{"id": "C69", "title": "The Fortran routines pass every argument as the C functions read it", "statement": "A Fortran program that calls a routine of the module chase_diag hands to the library exactly the values it has assigned to its arguments, in the right places, and finds in its arrays exactly the values the library has written.", "quantifier": "every routine of the module, scalar type, argument, memory content, address, array length and index", "why_tests_cant": "The declarations are written by hand, 36 times; a test covers the routines and element values it happens to use, and the C++ tests do not go through Fortran at all.", "anchors": ["interface/chase_f.f90: all interfaces", "interface/chase_c.cpp: the extern \"C\" functions they are bound to"]}
{"id": "C70", "title": "Arrays of the documented sizes are large enough", "statement": "A caller of the C or Fortran interface who allocates the array of the eigenvalues with the documented size (nev elements) gets no access outside it.", "quantifier": "every configuration with extra columns, every matrix, start state and history of a solve, every backend and process", "why_tests_cant": "All tests and examples allocate nev + nex elements, and an overrun of a heap array need not show.", "anchors": ["interface/chase_c.cpp: the documentation of ritzv in all init functions", "interface/chase_f.f90: the documentation of ritzv", "docs/usage.rst: parameter tables", "ChASE-MPI/impl/*: RR"]}
{"id": "C71", "title": "Messages and file transfers are complete whatever the sizes", "statement": "In a distributed solve every reduction and every broadcast covers all elements of the block it is meant for, and reading or writing the matrix transfers all elements of the local part, however large the matrix and the number of wanted pairs are.", "quantifier": "every matrix size, number of wanted and extra pairs, process, distribution, backend result and history of a solve, every file and local size", "why_tests_cant": "The limits are reached at two thousand million elements per process, far beyond the sizes of the tests.", "anchors": ["ChASE-MPI/mpi_wrapper.hpp: AllReduce, Bcast", "ChASE-MPI/impl/chase_mpidla.hpp: all callers", "ChASE-MPI/chase_mpi_properties.hpp: readHamiltonianBlockDist, readHamiltonianBlockCyclicDist, writeHamiltonianBlockDist, writeHamiltonianBlockCyclicDist"]}
{"id": "C72", "title": "The projected eigenproblem gets a sufficient workspace", "statement": "For every number of unconverged columns the eigensolver for the projected matrix is called with a workspace at least as large as LAPACK documents, so that the Rayleigh-Ritz step is computed and not silently skipped.", "quantifier": "every order of the projected matrix, precision, real and complex type, and size reported by LAPACK", "why_tests_cant": "The size goes through a floating-point number; the first failing order in single precision is 2895, and it depends on the version of LAPACK.", "anchors": ["ChASE-MPI/blas_templates.inc: t_heevd", "ChASE-MPI/impl/chase_mpidla_blaslapack_seq.hpp: RR", "ChASE-MPI/impl/chase_mpidla_blaslapack_seq_inplace.hpp: RR", "ChASE-MPI/impl/chase_mpidla_blaslapack.hpp: heevd"]}
{"id": "C73", "title": "Reported residuals are right up to rounding errors", "statement": "In floating-point arithmetic the residual reported for a pair differs from the exact residual norm of that pair, for the matrix handed in, by no more than an explicit multiple of the unit roundoff, so a small reported residual certifies an eigenvalue of the matrix near the reported value.", "quantifier": "every matrix, start block, precision (unit roundoff), order of the additions in the matrix products, number of rounds and history of a solve", "why_tests_cant": "Tests compare residuals of a few matrices on one machine; the bound has to hold for every order of operations a BLAS may choose and for the accumulated effect of any number of rounds on the matrix.", "anchors": ["ChASE-MPI/impl/chase_mpidla_blaslapack_seq.hpp: Resd, asynCxHGatherC, shiftMatrix", "algorithm/algorithm.inc: filter, solve"]}
{"id": "C74", "title": "A solve leaves the matrix of the caller as it was", "statement": "After a solve in floating-point arithmetic the matrix handed in has the same entries as before.", "quantifier": "every matrix, precision, start block and history of a solve", "why_tests_cant": "The shifts are subtracted and added again in every round; whether this is exact depends on the entries, the shifts and the rounding of every round.", "anchors": ["ChASE-MPI/impl/chase_mpidla_blaslapack_seq.hpp: shiftMatrix", "algorithm/algorithm.inc: filter"]}
{"id": "C75", "title": "Repeated solves do not use more and more memory", "statement": "A solver object that is used for one solve after the other, as in a sequence of correlated problems, holds no more memory after many solves than after the first.", "quantifier": "every backend, problem size, distribution, number of solves and course of each solve (any configuration, any backend results)", "why_tests_cant": "Tests run one or two solves and exit; leaks show only in long sequences, and which allocations are released depends on the path through the orthogonalisation.", "anchors": ["ChASE-MPI/impl/*: mLanczos, Swap, hhQR, estimated_cond_evaluator, LanczosDos", "ChASE-MPI/blas_templates.inc: t_gesvd, t_descinit", "ChASE-MPI/chase_mpi_matrices.hpp: Matrix"]}
{"id": "C76", "title": "A destroyed solver gives back what it acquired", "statement": "When a solver object is destroyed, everything acquired since its construction has been released exactly once: memory on host and device, communicators, datatypes, process grids, library handles and streams.", "quantifier": "every backend, problem size, process grid, number of objects and solves", "why_tests_cant": "A test creates one object per process and ends; lost communicators or handles are only noticed when the limit of the library is reached, and a double release need not crash.", "anchors": ["ChASE-MPI/chase_mpi_properties.hpp: constructors", "ChASE-MPI/impl/chase_mpidla.hpp: constructor, destructor", "ChASE-MPI/impl/chase_mpidla_mgpu.hpp: destructor", "ChASE-MPI/impl/chase_mpidla_cuda_seq.hpp: destructor"]}
{"id": "C77", "title": "In rounded arithmetic all processes decide alike", "statement": "When all processes of a grid call the solver on their parts of one problem, then whatever the rounding of the arithmetic and the order in which the processes advance, no process waits for ever, and all return the same eigenvalues, residuals, number of rounds and number of converged pairs, bit by bit, with parts of the same vectors.", "quantifier": "every grid, distribution, matrix, arithmetic and numerical library, every order in which sums over processes are formed, every schedule", "why_tests_cant": "Every process takes its decisions (convergence, degrees, fallbacks of the orthogonalisation) by itself on sums it got from its own communicator; a difference in the last bit shows only when a residual hits the tolerance.", "anchors": ["algorithm/algorithm.inc: solve, locking", "ChASE-MPI/impl/chase_mpidla.hpp: Resd, RR, cholQR2, mLanczos", "ChASE-MPI/impl/chase_mpidla_mgpu.hpp: apply, asynCxHGatherC, RR, Resd, cholQR2", "ChASE-MPI/chase_mpi.hpp: QR"]}
{"id": "C78", "title": "The documented memory estimate suffices", "statement": "From the construction of a distributed solver to its destruction, a process never holds more memory, counting the arrays of its caller, than the estimate that the documentation gives for its problem size, process grid and search space, and a GPU never more than the estimate for GPUs.", "quantifier": "every backend, problem size, process grid and distribution, every number of completed solves with any options, every way the orthogonalisations go (Cholesky or Householder)", "why_tests_cant": "Tests use problems that are far smaller than the memory, do not measure it, and solve once or twice; the estimate is exceeded only on elongated grids, with the Householder fallback, or after many solves.", "anchors": ["docs/installation/suggestion.rst: Estimating Memory Requirement", "ChASE-MPI/chase_mpi_matrices.hpp: ChaseMpiMatrices", "ChASE-MPI/impl/chase_mpidla.hpp: constructor, hhQR, mLanczos", "ChASE-MPI/impl/chase_mpidla_mgpu.hpp: constructor"]}
{"id": "C79", "title": "Library routines get their arguments as documented", "statement": "Whatever sizes, scalars and arrays the solver hands to the generic linear algebra functions, the BLAS, LAPACK, ScaLAPACK, cuBLAS or cuSOLVER routine of the scalar type finds at every position the argument that its documentation names there, with the caller's value; workspaces are as large as the routine was told; its status reaches the caller.", "quantifier": "every generic function and each of the four scalar types, all sizes below 2^31, all contents of memory, all addresses, all reported workspace sizes", "why_tests_cant": "The declarations are written by hand, so neither compiler nor linker compares them with the library; a wrong position or type only shows for particular contents of memory, and the tests do not print bounds, the only use of the singular values.", "anchors": ["ChASE-MPI/blas_templates.inc: t_gemm, t_syherk, t_heevd, t_stemr, t_gesvd, t_pgqr, t_lange, t_dot, t_norm_p2", "ChASE-MPI/blas_fortran.hpp", "ChASE-MPI/blas_cuda_wrapper.hpp"]}
{"id": "C80", "title": "Results on GPUs do not depend on timing", "statement": "However fast the devices execute the work handed to them, and in whatever order the rules of CUDA streams allow, a run of the single-GPU or the multi-GPU version never hangs, ends with the results that executing every operation before the next one begins would give, and the calling program never reads an array before its final contents have arrived.", "quantifier": "every program made of the calls of the backend and host code between them, deciding from anything in host memory; every contents of memory, every effect of the library routines and kernels, every grid of processes, every order of execution", "why_tests_cant": "A missing synchronisation shows only for unlucky timing, which depends on device, driver, problem size and load; a test cannot make the device slow at a particular place.", "anchors": ["ChASE-MPI/impl/chase_mpidla_cuda_seq.hpp: apply, shiftMatrix, Resd, RR, cholQR1, shiftedcholQR2, mLanczos", "ChASE-MPI/impl/chase_mpidla_mgpu.hpp: apply, asynCxHGatherC, Resd, shiftMatrixForQR", "ChASE-MPI/impl/chase_mpidla.hpp: apply, asynCxHGatherC, RR, Resd", "ChASE-MPI/mpi_wrapper.hpp: AllReduce, Bcast, Memcpy"]}
{"id": "C81", "title": "Routines get pointers to memory they can use", "statement": "Host code and MPI without GPU support are given host arrays, kernels and CUDA libraries device arrays, and every copy between host and device is asked for in the direction in which its pointers lie.", "quantifier": "every call of the GPU backends, every way to communicate, every outcome of the factorisations, any number of Lanczos steps and vectors", "why_tests_cant": "Which pointers are passed depends on preprocessor options and on the outcome of numerical decisions; drivers often tolerate a wrong direction, so that a test passes although the behaviour is undefined.", "anchors": ["ChASE-MPI/impl/chase_mpidla.hpp: lockVectorCopyAndOrthoConcatswap, Swap, mLanczos, hhQR", "ChASE-MPI/impl/chase_mpidla_mgpu.hpp", "ChASE-MPI/impl/chase_mpidla_cuda_seq.hpp", "ChASE-MPI/mpi_wrapper.hpp: Memcpy"]}
{"id": "C82", "title": "ScaLAPACK sees the distributed arrays as they are", "statement": "When the library hands the block of vectors or the matrix to ScaLAPACK, the grid and the descriptors it passes name for every entry the process that has it and its place in the memory of that process, so that the Householder QR orthonormalises the vectors and the symmetrisation mirrors the triangle of the matrix of the caller, and no routine writes outside the arrays it was given.", "quantifier": "every matrix size, block size, first process, shape and numbering of the process grid, leading dimension, communicator and contents", "why_tests_cant": "A descriptor that is wrong for some layouts makes ScaLAPACK permute or mix rows, or write elsewhere, without an error; tests use the layouts for which the descriptor happens to be right, usually on all processes and without padding.", "anchors": ["ChASE-MPI/chase_mpi_properties.hpp: constructors, colcomm_ctxt_, comm2d_ctxt_, desc1D_Nxnevx_", "ChASE-MPI/impl/chase_mpidla.hpp: symOrHermMatrix, hhQR", "ChASE-MPI/blas_templates.inc: t_descinit"]}
{"id": "C83", "title": "Sums and broadcasts with NCCL are those of MPI", "statement": "Built with NCCL, the library makes for every row and every column of the process grid one NCCL communicator with the same processes and ranks as the MPI communicator it stands for, and every sum and broadcast over it gives what the MPI operation would give, for real and complex elements alike.", "quantifier": "every shape and numbering of the process grid, every element type, number of elements, root and contents of memory", "why_tests_cant": "Communicators and element counts are computed for each process separately; an error may show only for particular grids, as wrong sums or as a hang.", "anchors": ["ChASE-MPI/chase_mpi_properties.hpp: constructors (HAS_NCCL)", "ChASE-MPI/mpi_wrapper.hpp: Comm, AllReduce, Bcast"]}
{"id": "C84", "title": "Returned vectors are orthonormal up to rounding error, with a bound that does not grow", "statement": "In floating-point arithmetic, after a successful solve with at least one round, the norms of the nev+nex vectors in the user's buffer differ from one, and their inner products from zero, by at most a bound that depends only on the error of one QR factorisation, of one product with a small matrix and of one small eigenproblem, and on the number of vectors: not on the number of rounds, the order in which pairs were locked, or the matrix.", "quantifier": "every matrix, start vectors, sizes, configuration, number of rounds, order of floating-point operations within products, and kernels with the stated error; for the distributed backend every grid and schedule", "why_tests_cant": "Loss of orthogonality depends on the rounding errors of a particular run and could build up over rounds in which locked vectors are carried along.", "anchors": ["algorithm/algorithm.inc: Algorithm::solve, Algorithm::locking", "ChASE-MPI/chase_mpi.hpp: QR, RR, Lock", "ChASE-MPI/impl/chase_mpidla_blaslapack_seq.hpp: hhQR, lockVectorCopyAndOrthoConcatswap, RR", "ChASE-MPI/impl/chase_mpidla.hpp, impl/chase_mpidla_blaslapack.hpp: same"]}
{"id": "C85", "title": "Returned values stand for different eigenvalues", "statement": "After a successful solve with at least one round, the nev wanted values can be matched with different eigenvalues of the user's matrix, counted with multiplicity, each at distance at most the root of the sum of the squares of the nev returned residuals; the same holds for all nev+nex values and residuals. So one eigenvalue is never reported twice in place of two, and the i-th returned value is not smaller than the i-th smallest eigenvalue by more than that bound.", "quantifier": "every Hermitian matrix, start vectors, sizes, configuration and number of rounds; each backend; for the distributed ones every grid and distribution", "why_tests_cant": "That each residual is small only says that each value is near some eigenvalue; several values could be near the same one. Whether this happens depends on the spectrum and on how orthogonality is kept between pairs locked in different rounds, and a test knows the spectrum only of special matrices.", "anchors": ["algorithm/algorithm.inc: Algorithm::solve, Algorithm::locking", "ChASE-MPI/chase_mpi.hpp: QR, RR, Resd, Lock, GetRitzv, GetResid", "ChASE-MPI/impl/*: hhQR, lockVectorCopyAndOrthoConcatswap, RR, Resd"]}
{"id": "C86", "title": "A failure reported by a library routine does not become a result", "statement": "If a LAPACK or cuSOLVER routine called during a solve reports a failure (info not zero; for the Cholesky factorisation the documented fall-back is used instead), the solve does not return as if it had succeeded: every solve that returns has eigenpairs with the orthonormality, the residuals and the untouched matrix that it would have if no routine had failed. Conversely a solve is not aborted if no routine fails.", "quantifier": "every Hermitian matrix, start vectors, sizes, configuration and number of rounds; every set of arguments on which a routine fails and everything it may leave in its output; each backend, for the distributed ones every grid and distribution; builds with and without assertions", "why_tests_cant": "Library routines practically never fail on the inputs of a test, and what they leave behind when they do is unspecified; whether a failure goes unnoticed depends on the call, the backend and the build type.", "anchors": ["ChASE-MPI/blas_templates.inc: t_geqrf, t_gqr, t_heevd, t_stemr, t_potrf", "ChASE-MPI/chase_mpi.hpp: QR, Lanczos, RR", "ChASE-MPI/impl/chase_mpidla_blaslapack_seq.hpp, impl/chase_mpidla_blaslapack_seq_inplace.hpp, impl/chase_mpidla.hpp, impl/chase_mpidla_cuda_seq.hpp, impl/chase_mpidla_mgpu.hpp: RR, hhQR"]}
{"id": "C87", "title": "Cholesky QR, the default, keeps the vectors as orthonormal as Householder QR does", "statement": "With Cholesky QR switched on (the default), a block that is not too ill-conditioned for the variant chosen by the estimate of its condition leaves the orthogonalisation as orthonormal, up to a modest multiple of the rounding error, as Householder QR would leave it: after a successful solve with at least one round in which all blocks are of this kind, the norms of the returned vectors differ from one and their inner products from zero by at most the bound of C84, whichever variants the rounds used and whether or not a factorisation failed and Householder QR was used instead.", "quantifier": "every matrix, start vectors, sizes, configuration, number of rounds, choice of variant per round, order of floating-point operations within products, and kernels with the stated error; for the distributed backend every grid and schedule", "why_tests_cant": "The loss of orthogonality of Cholesky QR depends on the square of the condition of each filtered block and on the rounding errors of its Gram matrix, factorisation and triangular solve.", "anchors": ["ChASE-MPI/chase_mpi.hpp: QR", "ChASE-MPI/impl/chase_mpidla_blaslapack_seq.hpp: cholQR1, cholQR2, shiftedcholQR2", "ChASE-MPI/impl/chase_mpidla_blaslapack_seq_inplace.hpp, impl/chase_mpidla_cuda_seq.hpp: same", "ChASE-MPI/impl/chase_mpidla_blaslapack.hpp, impl/chase_mpidla.hpp: same", "algorithm/algorithm.inc: Algorithm::solve (estimate of the condition)"]}
{"id": "C88", "title": "The condition estimate that decides how QR is done is not too small", "statement": "The number handed to QR in a round, which decides between the variants of Cholesky QR and which the library prints next to the true condition number when CHASE_DISPLAY_BOUNDS is set, is at least the condition number of the active block of search vectors at that moment.", "quantifier": "every Hermitian matrix, start vectors and values, configuration, round and numbers of locked pairs, with any degrees per vector; for the distributed backends every grid and distribution", "why_tests_cant": "It compares a formula in a few Ritz values and degrees with the condition number of a block that depends on the whole history of the solve; a test sees a few blocks.", "anchors": ["algorithm/algorithm.inc: Algorithm::solve (cond, QR(0, 1.0), QR(locked, cond))", "ChASE-MPI/chase_mpi.hpp: QR", "ChASE-MPI/impl/chase_mpidla_blaslapack_seq.hpp: estimated_cond_evaluator"]}
{"id": "C89", "title": "In floating-point arithmetic the filter still multiplies by the filter polynomial", "statement": "In floating-point arithmetic the filter of every round multiplies each active vector by the Chebyshev filter polynomial of its degree in the matrix handed in, for an interval and a scaling point that differ from those of the round by a few rounding errors only, up to an error relative to the length of the vector and to the largest value of the polynomial on the spectrum. The error grows at most with the square of the degree, times the error of one matrix product relative to half the width of the interval plus the change of the diagonal by the shifts of all rounds before, provided this number is not above one.", "quantifier": "every Hermitian matrix, start vectors, sizes, configuration, number of rounds before, degrees per vector, order of floating-point operations within products, and kernels with the stated error; for the distributed backend every grid, distribution and order of the additions in a reduction", "why_tests_cant": "The recurrence amplifies the rounding errors of every step by factors that depend on the spectrum, the degree, the interval and the scaling, and the matrix itself has been changed by the shifts of all rounds before; a test sees a few matrices and degrees.", "anchors": ["algorithm/algorithm.inc: Algorithm::filter, Algorithm::solve", "ChASE-MPI/chase_mpi.hpp: Shift, HEMM", "ChASE-MPI/impl/chase_mpidla_blaslapack_seq.hpp: shiftMatrix, apply", "ChASE-MPI/impl/chase_mpidla_blaslapack_seq_inplace.hpp, impl/chase_mpidla_cuda_seq.hpp: shiftMatrix, apply", "ChASE-MPI/impl/chase_mpidla_blaslapack.hpp, impl/chase_mpidla.hpp: shiftMatrix, apply, preApplication"]}
{"id": "C90", "title": "Sums of returned values are never below the sums of the lowest eigenvalues", "statement": "After a solve with at least one round, converged or not, the sum of any m of the returned nev+nex values is at least the sum of the m smallest eigenvalues of the matrix, counted with multiplicities, and at most the sum of the m largest. In particular no value is below the smallest eigenvalue, and the sum over the nev wanted values (a band energy) is approached from above.", "quantifier": "every Hermitian matrix, start block, configuration, number of iterations, selection of values, and for the distributed backends every grid and distribution; exact arithmetic", "why_tests_cant": "A missed eigenvalue, an early lock of a pair that is not converged, or a stagnating run are special matrices and start blocks; a test sees the sums for a few.", "anchors": ["algorithm/algorithm.inc: Algorithm::solve", "ChASE-MPI/chase_mpi.hpp: RR, Lock, GetRitzv"]}
{"id": "C91", "title": "Small residuals mean accurate vectors, and values twice as accurate", "statement": "After a solve with at least one round, for each returned pair with residual r and every distance d, the vector differs by at most r/d from a sum of eigenvectors of the matrix whose eigenvalues are closer than d to the returned value; and if only one eigenvalue is that close, the returned value is within r*r/d of it.", "quantifier": "every Hermitian matrix, start block, configuration, number of iterations, returned pair and distance, and for the distributed backends every grid and distribution", "why_tests_cant": "It relates the reported residual to the distance from the unknown exact eigenvectors, for all matrices including those with clusters of eigenvalues; a test compares with known solutions of a few.", "anchors": ["algorithm/algorithm.inc: Algorithm::solve, Algorithm::locking", "ChASE-MPI/chase_mpi.hpp: RR, Resd, GetRitzv, GetResid"]}
{"id": "C92", "title": "The GPU eigensolver and factorisations get the workspace they ask for", "statement": "In every iteration on a GPU, each cuSOLVER routine gets a workspace of at least as many elements as the library asks for the sizes of this very call, and no more is promised to it than is allocated.", "quantifier": "every matrix size, number of wanted and extra columns, number of columns still being iterated on, scalar type, and every answer of the library", "why_tests_cant": "The workspace is queried once for the largest size and reused for all smaller ones; whether it suffices depends on the version of the library and on the sizes that occur during a solve. A workspace that is too short makes the routine fail with a status nobody checks in release builds.", "anchors": ["ChASE-MPI/impl/chase_mpidla_cuda_seq.hpp: ChaseMpiDLACudaSeq, hhQR, cholQR1, RR", "ChASE-MPI/impl/chase_mpidla_mgpu.hpp: ChaseMpiDLAMultiGPU, potrf, heevd", "ChASE-MPI/blas_cuda_wrapper.hpp"]}
{"id": "C93", "title": "Every process works on a GPU of its own", "statement": "After a distributed solver object with GPUs has been set up, every process works on a GPU that exists and no two processes of a node work on the same one; if a node has too few GPUs for that, the user is told and nothing is computed.", "quantifier": "every number of processes, every placement of them on nodes, every number and visibility of the GPUs of the nodes, every order in which MPI numbers the processes of a node", "why_tests_cant": "The choice depends on the machine and on how the job is placed: test machines have one node and as many GPUs as processes, so that the cases in which processes share a GPU or in which the node of the first process differs from the others never occur.", "anchors": ["ChASE-MPI/chase_mpi_properties.hpp: ChaseMpiProperties (three constructors), shm_comm_, cudaSetDevice"]}
{"id": "C94", "title": "The example programs hand over a matrix that is assigned and Hermitian", "statement": "The example programs, which users copy as a starting point, access only elements of their own arrays, read no element before it is assigned, and hand to the solver a Hermitian matrix all of whose entries have been assigned, each process its part of the same matrix.", "quantifier": "every matrix size, every part of the matrix a process may hold, every number of the problem in a sequence, all random numbers", "why_tests_cant": "The programs are compiled and run at one size on whatever memory the machine returns: memory that happens to be zero, and elements written behind an array, stay unnoticed.", "anchors": ["examples/0_hello_world/0_hello_world.cpp: main", "examples/1_sequence_eigenproblems/1_sequence_eigenproblems.cpp: main", "examples/3_installation/chase-app.cpp: main", "examples/4_interface/4_c_serial_chase.c: main", "examples/4_interface/4_c_dist_chase.c: main", "examples/4_interface/4_f_serial_chase.f90", "examples/4_interface/4_f_dist_chase.f90"]}
{"id": "C95", "title": "The driver program does what its command line says", "statement": "The driver program that reads matrices from files solves exactly the problems its command line asks for, in order, each with the size, tolerance, degrees, distribution and kind of start vectors given by the options or their documented defaults, and reports a failure by its exit status if it has not solved them.", "quantifier": "every list of options with legal values, in every order and with repetitions, all sizes of the files, both builds (block and block-cyclic distribution)", "why_tests_cant": "No test runs the driver, and the options can be combined in far too many ways: those that write to the wrong variable or are never read only show in particular combinations.", "anchors": ["examples/2_input_output/2_input_output.cpp: main, do_chase, ChASE_DriverProblemConfig", "docs/example/io.rst"]}
{"id": "C96", "title": "CUDA accepts every kernel launch", "statement": "Every kernel a GPU backend launches during a solve has a configuration CUDA accepts: at least one block and one thread, and no more blocks and threads than the limits of the device. (A launch outside the limits does nothing and its error status is not looked at.)", "quantifier": "every backend answer and input with which the solve returns, every order of the matrix and number of columns that fit in an int, every share of the matrix a process can have, including none of its diagonal", "why_tests_cant": "The rejected configurations need particular sizes (multiples of a block, empty shares, very large matrices) that tests on small matrices never reach, and a rejected launch is silent.", "anchors": ["ChASE-MPI/kernels/shift.cu: absTrace_gpu, residual_gpu, t_lacpy_gpu, chase_rand_normal, chase_shift_matrix, chase_shift_mgpu_matrix", "ChASE-MPI/impl/chase_mpidla_cuda_seq.hpp: shiftMatrix, Resd, cholQR1", "ChASE-MPI/impl/chase_mpidla_mgpu.hpp: lacpy, shiftMatrix, Resd"]}
{"id": "C97", "title": "Running out of memory is reported", "statement": "If memory that the constructor of a solver object or a solve asks for, on the host or on a device, cannot be had, the user learns of it: the program is left by an exception or ends with a message at this request. The constructor never returns an object, and a solve never goes on, without memory it asked for.", "quantifier": "every backend, all sizes, every sequence of solves and every way they go, every set of requests that are refused, whatever they depend on", "why_tests_cant": "Tests run where there is enough memory. Which of the many requests is the first to be refused depends on the machine, on other programs and on what was solved before; refusing each of them in each history cannot be done by running the code.", "anchors": ["ChASE-MPI/chase_mpi_matrices.hpp: CpuMem, GpuMem, Matrix, ChaseMpiMatrices", "ChASE-MPI/impl/chase_mpidla_cuda_seq.hpp: ChaseMpiDLACudaSeq, mLanczos, computeDiagonalAbsSum", "ChASE-MPI/impl/chase_mpidla_mgpu.hpp: ChaseMpiDLAMultiGPU, LanczosDos", "ChASE-MPI/impl/chase_mpidla.hpp: mLanczos, hhQR, estimated_cond_evaluator", "ChASE-MPI/impl/chase_mpidla_blaslapack_seq.hpp", "ChASE-MPI/impl/chase_mpidla_blaslapack_seq_inplace.hpp", "ChASE-MPI/blas_templates.inc", "ChASE-MPI/blas_cuda_wrapper.hpp: cuda_exec"]}
{"id": "C98", "title": "The basis in which a problem is written does not matter", "statement": "Solving a problem written in another orthonormal basis, for instance with the unknowns numbered in another order, returns the same eigenvalues and residuals after the same number of iterations, and the same eigenvectors written in that basis, if the start vectors the caller passes are written in that basis too.", "quantifier": "every unitary change of basis, every matrix, every set of start vectors and approximate values, all configurations in approximation mode, exact arithmetic", "why_tests_cant": "A test compares a few bases of a few matrices; the claim compares two complete runs for every change of basis, through every branch of the degree, locking and QR decisions.", "anchors": ["algorithm/algorithm.inc: Algorithm::solve", "ChASE-MPI/impl/chase_mpidla_blaslapack_seq.hpp: apply, cholQR1, cholQR2, shiftedcholQR2, hhQR, RR, Resd, mLanczos, LanczosDos"]}
{"id": "C99", "title": "A real problem may be solved with the real or with the complex version", "statement": "A real symmetric matrix handed to the complex version of the solver with the same start vectors and settings gives the same eigenvalues and residuals after the same number of iterations as with the real version, and eigenvectors that are real and equal to those of the real version.", "quantifier": "every real symmetric matrix, every set of real start vectors and approximate values, all configurations in approximation mode, whatever earlier work left in the other arrays; exact arithmetic", "why_tests_cant": "A test compares the two versions on a few matrices, where it cannot tell a different result from a rounding error; the claim compares two complete runs for every matrix, through every branch of the degree, locking and QR decisions.", "anchors": ["algorithm/algorithm.inc: Algorithm::solve", "ChASE-MPI/impl/chase_mpidla_blaslapack_seq.hpp: ChaseMpiDLABlaslapackSeq<T>", "ChASE-MPI/blas_templates.inc: t_dot, t_heevd, t_gqr"]}

{
 "claims": [
  {
   "property": "C01",
   "status": "proved",
   "theorems": [
    "Verif.C01_stops_within_maxIter",
    "Verif.C01_rounds_are_observable"
   ],
   "note": "for every backend; error outcomes are undefined behaviour of the C++ code (see DESIGN.md)"
  },
  {
   "property": "C02",
   "status": "proved",
   "theorems": [
    "Verif.C02_accounting",
    "Verif.C02_lock_calls_add_up"
   ],
   "note": "for every backend"
  },
  {
   "property": "C03",
   "status": "proved",
   "theorems": [
    "Verif.C03_locked_pairs_frozen",
    "Verif.C03_locked_pairs_frozen_noSwap",
    "Verif.Mpi.C03_mpi",
    "Verif.Mgpu.C03_mgpu"
   ],
   "note": "for every backend keeping the Bookkeeping contract, and for backends whose Swap does nothing; instantiated for the distributed CPU backend and for the sound setups of the multi-GPU backend"
  },
  {
   "property": "C04",
   "status": "proved",
   "theorems": [
    "Verif.C04_values_ascending"
   ],
   "note": "for every backend"
  },
  {
   "property": "C05",
   "status": "partial",
   "theorems": [
    "Verif.C05_values_stay_with_vectors",
    "Verif.C17_degrees_permute_pairs",
    "Verif.C05_noSwap_partial",
    "Verif.C05_noop_swap_refuted",
    "Verif.Mpi.C05_mpi_swap_noop",
    "Verif.Mpi.C05_mpi_refuted",
    "Verif.Mgpu.C05_mgpu_refuted"
   ],
   "note": "any relation established by Rayleigh-Ritz holds position-wise at the end, for backends whose Swap exchanges columns; the Swap of the distributed backends is a no-op, for such backends the pairs are right up to a permutation, which is the identity for a one-iteration run or sorted values. The full claim is refuted for them by a solve of diag(1,2,3) on every process grid, after which the first column belongs to the value 2 and the first value is close to 1"
  },
  {
   "property": "C06",
   "status": "partial",
   "theorems": [
    "Verif.C06_residuals_partial",
    "Verif.C06_residuals_arith_partial",
    "Verif.C06_residual_pairing_refuted",
    "Verif.C06_seq_refuted"
   ],
   "note": "the full claim is false (final sort does not move residuals): refuted by a backend that keeps the contracts and by a solve of diag(1,2,3) on the single-process backend; residuals are right up to the permutation of the final sort"
  },
  {
   "property": "C07",
   "status": "partial",
   "theorems": [
    "Verif.C07_locking_arith_partial",
    "Verif.C07_locking_partial",
    "Verif.C07_rounds_partial",
    "Verif.sortIdx_of_strict",
    "Verif.C07_locking_refuted",
    "Verif.C07_locking_refuted_unsorted"
   ],
   "note": "full claim false for tied values with an unstable sort and for unsorted values: refutations proved; true when the index list is in order"
  },
  {
   "property": "C08",
   "status": "proved",
   "theorems": [
    "Verif.C08_failed_check_no_effect"
   ],
   "note": ""
  },
  {
   "property": "C09",
   "status": "partial",
   "theorems": [
    "Verif.C09_check_iff",
    "Verif.C09_hermitian_accepted",
    "Verif.C09_skew_rejected",
    "Verif.Mpi.C09_mpi_check_iff",
    "Verif.Mpi.C09_mpi_hermitian_accepted",
    "Verif.Mpi.C09_mpi_refuted"
   ],
   "note": "exact arithmetic; single-process backends in full; the distributed check uses an absolute tolerance, so a small multiple of any matrix is accepted"
  },
  {
   "property": "C10",
   "status": "proved",
   "theorems": [
    "Verif.C10_filter_is_chebyshev",
    "Verif.C10_outside",
    "Verif.Mpi.C10_mpi",
    "Verif.Mgpu.C10_mgpu"
   ],
   "note": "exact arithmetic; sequential, distributed CPU and multi-GPU backends; the same polynomial for the in-place backends is C11"
  },
  {
   "property": "C11",
   "status": "proved",
   "theorems": [
    "Verif.C11_inplace_filter",
    "Verif.C11_same_as_two_buffer"
   ],
   "note": ""
  },
  {
   "property": "C12",
   "status": "proved",
   "theorems": [
    "Verif.C12_work_count"
   ],
   "note": "for every backend; the count is the sum of the column degrees"
  },
  {
   "property": "C13",
   "status": "proved",
   "theorems": [
    "Verif.C13_matrix_restored_seq",
    "Verif.C13_matrix_restored_inplace",
    "Verif.C50_seq",
    "Verif.C41_inplace_partial",
    "Verif.Mpi.C13_mpi",
    "Verif.Mgpu.C13_mgpu"
   ],
   "note": "exact arithmetic; every backend"
  },
  {
   "property": "C14",
   "status": "proved",
   "theorems": [
    "Verif.C14_keeps_wanted_damps_interval",
    "Verif.C14_inplace",
    "Verif.Mpi.C14_mpi",
    "Verif.Mgpu.C14_mgpu",
    "Verif.filterPoly_scales"
   ],
   "note": "exact arithmetic; every backend"
  },
  {
   "property": "C15",
   "status": "partial",
   "theorems": [
    "Verif.C15_filter_safe_partial",
    "Verif.C15_solve_filter_safe_partial",
    "Verif.C15_small_degrees_fail",
    "Verif.C15_filter_safety_refuted"
   ],
   "note": "full claim false: with all degrees 0 the scan for the next group runs past the degree array; safe whenever the last degree is at least 2"
  },
  {
   "property": "C16",
   "status": "proved",
   "theorems": [
    "Verif.C16_degrees_even_bounded_ascending",
    "Verif.C16_reachable_config",
    "Verif.C16_succeeds_iff",
    "Verif.C17_degrees_permute_pairs"
   ],
   "note": "the degree of the guard columns is part of AssignedDegree in C17_degrees_permute_pairs"
  },
  {
   "property": "C17",
   "status": "proved",
   "theorems": [
    "Verif.C17_degrees_permute_pairs"
   ],
   "note": ""
  },
  {
   "property": "C18",
   "status": "proved",
   "theorems": [
    "Verif.C18_degree_large_enough",
    "Verif.C18_defined_iff",
    "Verif.C18_filter_gain",
    "Verif.C18_no_guard_columns_undefined"
   ],
   "note": "exact arithmetic; the degree is undefined (conversion of infinity) at the ends and the middle of the interval, which always happens without guard columns"
  },
  {
   "property": "C19",
   "status": "proved",
   "theorems": [
    "Verif.C19_plain_parameters",
    "Verif.C19_degrees_rounded_up",
    "Verif.C19_degrees_even"
   ],
   "note": ""
  },
  {
   "property": "C20",
   "status": "proved",
   "theorems": [
    "Verif.C20_bound_single",
    "Verif.C20_bound_multi",
    "Verif.C20_ritz_near_spectrum"
   ],
   "note": ""
  },
  {
   "property": "C21",
   "status": "proved",
   "theorems": [
    "Verif.C21_lanczos_recurrence",
    "Verif.C21_tridiagonalises",
    "Verif.Mpi.C21_mpi",
    "Verif.Mpi.C21_mpi_tridiagonalises"
   ],
   "note": "single-process backends (one run, or several on the CPU: C48), distributed CPU backend, and with it the multi-GPU backend, which runs the same code on the buffers in use"
  },
  {
   "property": "C22",
   "status": "partial",
   "theorems": [
    "Verif.C22_start_values_partial",
    "Verif.C22_defined_iff",
    "Verif.C22_full_space_refuted",
    "Verif.C22_early_crossing_refuted",
    "Verif.C22_negative_index_refuted"
   ],
   "note": "the start values are defined and bracket the sought counts exactly under the stated condition; otherwise reads and writes outside arrays or an uninitialised bound, shown with witnesses"
  },
  {
   "property": "C23",
   "status": "proved",
   "theorems": [
    "Verif.C23_intersperse_permutes"
   ],
   "note": ""
  },
  {
   "property": "C24",
   "status": "proved",
   "theorems": [
    "Verif.C24_disabled_iff",
    "Verif.C24_selection",
    "Verif.C24_recorder_faithful",
    "Verif.C24_environment_overrides"
   ],
   "note": "the environment variable overrides the configuration; stated so"
  },
  {
   "property": "C25",
   "status": "proved",
   "theorems": [
    "Verif.C25_cholesky_qr",
    "Verif.C25_success_means_orthonormal",
    "Verif.C25_householder",
    "Verif.Mpi.C26_mpi",
    "Verif.Mgpu.C26_mgpu"
   ],
   "note": "exact arithmetic, LAPACK by contract; on the distributed backends for the QR call as a whole"
  },
  {
   "property": "C26",
   "status": "partial",
   "theorems": [
    "Verif.C26_qr_keeps_locked_seq",
    "Verif.C26_qr_keeps_locked_inplace_partial",
    "Verif.C26_locked_rescaled_refuted",
    "Verif.Mpi.C26_mpi",
    "Verif.Mgpu.C26_mgpu"
   ],
   "note": "sequential and distributed CPU backend in full, multi-GPU backend in the setups of C60; false for the in-place backends when a shifted Cholesky QR fails after its first, applied, round: the locked vectors come back rescaled"
  },
  {
   "property": "C27",
   "status": "proved",
   "theorems": [
    "Verif.C27_rayleigh_ritz_seq",
    "Verif.C27_rayleigh_ritz_inplace",
    "Verif.Mpi.C27_mpi",
    "Verif.Mgpu.C27_mgpu"
   ],
   "note": "exact arithmetic; every backend; multi-GPU: when staging, the columns are on the device too or the Householder flag makes the step copy them"
  },
  {
   "property": "C28",
   "status": "proved",
   "theorems": [
    "Verif.C28_residual_certifies_eigenvalue",
    "Verif.C28_rayleigh_within_spectrum"
   ],
   "note": ""
  },
  {
   "property": "C29",
   "status": "proved",
   "theorems": [
    "Verif.Dist.C29_numroc_counts",
    "Verif.Dist.C29_numroc_total",
    "Verif.Dist.C29_zero_block"
   ],
   "note": "block size 0 divides by zero"
  },
  {
   "property": "C30",
   "status": "partial",
   "theorems": [
    "Verif.Dist.C30_tables_partial",
    "Verif.Dist.C30_empty_process_refuted"
   ],
   "note": "every process that owns at least one index; a process without blocks reads out of bounds in the constructor"
  },
  {
   "property": "C31",
   "status": "partial",
   "theorems": [
    "Verif.Dist.C31_blocks_partial",
    "Verif.Dist.C31_tables_agree",
    "Verif.Dist.C31_wrap_refuted",
    "Verif.Dist.C31_auto_fits_iff",
    "Verif.Dist.C31_auto_large",
    "Verif.Dist.C31_auto_refuted",
    "Verif.Dist.C31_as_cyclic"
   ],
   "note": "holds iff (processes-1)*block <= N; otherwise the size of the last process wraps"
  },
  {
   "property": "C32",
   "status": "proved",
   "theorems": [
    "Verif.Dist.C32_coord_range",
    "Verif.Dist.C32_coord_bijective",
    "Verif.Dist.C32_communicators",
    "Verif.Dist.C32_scalapack_map"
   ],
   "note": ""
  },
  {
   "property": "C33",
   "status": "proved",
   "theorems": [
    "Verif.Mpi.C33_reduction_order",
    "Verif.Mpi.C33_apply_to_B",
    "Verif.Mpi.C33_apply_to_C",
    "Verif.Mgpu.C33_mgpu_to_B",
    "Verif.Mgpu.C33_mgpu_to_C",
    "Verif.Mgpu.C33_mgpu_stale"
   ],
   "note": "exact arithmetic; distributed CPU and multi-GPU backends; on the latter, with copies on the host and beta not 0, if the target was uploaded before (C33_mgpu_stale: the routine itself does not upload it)"
  },
  {
   "property": "C34",
   "status": "proved",
   "theorems": [
    "Verif.Mpi.C34_shift",
    "Verif.Mpi.C34_entry_once",
    "Verif.Mpi.C34_shift_back",
    "Verif.Mgpu.C34_mgpu"
   ],
   "note": "distributed CPU and multi-GPU backends"
  },
  {
   "property": "C35",
   "status": "proved",
   "theorems": [
    "Verif.Dist.C35_collect_scatter",
    "Verif.Dist.C35_scatter_collect",
    "Verif.Dist.C35_block_round_trip"
   ],
   "note": "for every layout whose constructor succeeds (see C30, C31)"
  },
  {
   "property": "C36",
   "status": "partial",
   "theorems": [
    "Verif.Dist.C36_runs_partial",
    "Verif.Dist.C36_directions_agree",
    "Verif.Dist.C36_same_layout",
    "Verif.Dist.C36_sources_refuted",
    "Verif.Dist.C36_block_refuted",
    "Verif.Dist.C36_block_partial"
   ],
   "note": "source processes 0; other source processes and oversized last blocks are refuted"
  },
  {
   "property": "C37",
   "status": "partial",
   "theorems": [
    "Verif.Dist.C37_read_block",
    "Verif.Dist.C37_read_block_mpiio",
    "Verif.Dist.C37_read_cyclic",
    "Verif.Dist.C37_read_cyclic_mpiio_partial",
    "Verif.Dist.C37_write_block",
    "Verif.Dist.C37_write_cyclic_partial",
    "Verif.Dist.C37_roundtrip_block",
    "Verif.Dist.C37_roundtrip_cyclic_partial",
    "Verif.Dist.C37_read_interface",
    "Verif.Dist.C37_mpiio_source_refuted",
    "Verif.Dist.C37_mpiio_grid_refuted",
    "Verif.Dist.C37_write_refuted",
    "Verif.Dist.C37_interface_write_refuted",
    "Verif.Dist.C37_short_file",
    "Verif.Dist.C37_short_file_cyclic_refuted"
   ],
   "note": "block distribution: all grids; block-cyclic through streams: all grids and sources; through MPI-IO only row-major grids starting on process (0,0), the rest is refuted with witnesses"
  },
  {
   "property": "C38",
   "status": "proved",
   "theorems": [
    "Verif.Mpi.C38_projected_matrix",
    "Verif.Mpi.C38_residuals",
    "Verif.Mgpu.C38_mgpu_residuals"
   ],
   "note": "exact arithmetic; residuals also on the multi-GPU backend, if the columns (copies on the host) or the values (device-aware) are on the device"
  },
  {
   "property": "C39",
   "status": "proved",
   "theorems": [
    "Verif.Perf.C39_transparent",
    "Verif.Perf.C39_counters",
    "Verif.Perf.C39_refused"
   ],
   "note": "for every backend; the counters are reset by Start, so they hold for repeated solves"
  },
  {
   "property": "C40",
   "status": "partial",
   "theorems": [
    "Verif.Perf.C40_clocks_balanced",
    "Verif.Perf.C40_print_first",
    "Verif.Perf.C40_phases_within_total",
    "Verif.Perf.C40_print_refuted",
    "Verif.Perf.C40_print_before_solve"
   ],
   "note": "clocks are balanced; repeatability of print is refuted (times double), print before the first solve reads an uninitialised member"
  },
  {
   "property": "C41",
   "status": "partial",
   "theorems": [
    "Verif.C50_seq",
    "Verif.C41_inplace_partial",
    "Verif.C41_inplace_odd",
    "Verif.C41_inplace_refuted"
   ],
   "note": "sequential backend always; in-place and single-GPU backend with Householder or Cholesky QR unless the shifted Cholesky QR meets linearly dependent columns; in-place CPU backend only after an even number of rounds"
  },
  {
   "property": "C42",
   "status": "partial",
   "theorems": [
    "Verif.Bounds.C42_inplace",
    "Verif.Bounds.C42_seq_partial",
    "Verif.Bounds.C42_mpi_partial",
    "Verif.Bounds.C42_seq_refuted",
    "Verif.Bounds.C42_lanczos_refuted",
    "Verif.Bounds.C42_mpi_overrun",
    "Verif.Bounds.C42_mpi_refuted",
    "Verif.Bounds.C42_cuda",
    "Verif.Bounds.C42_cuda_lanczos_refuted",
    "Verif.Bounds.C42_mgpu_partial",
    "Verif.Bounds.C42_mgpu_overrun",
    "Verif.Bounds.C42_mgpu_history_refuted",
    "Verif.Bounds.C42_mgpu_two_solves_refuted"
   ],
   "note": "all backends need at most nev+nex Lanczos runs, the sequential one also nex <= nev; the distributed gather overruns the matrix C2 on processes with fewer rows than others when the layouts differ (CPU and multi-GPU); an object of the CUDA-aware multi-GPU backend keeps a buffer sized by its first solve. All refuted with witnesses or for every such configuration. The workspaces of cuSOLVER are the subject of C92"
  },
  {
   "property": "C43",
   "status": "partial",
   "theorems": [
    "Verif.Iface.C43_safe_iff",
    "Verif.Iface.C43_all_released_partial",
    "Verif.Iface.C43_solve_on_own_solver",
    "Verif.Iface.C43_types_independent",
    "Verif.Iface.C43_refuted",
    "Verif.Iface.C43_double_finalize",
    "Verif.Iface.C43_solve_after_finalize",
    "Verif.Iface.C43_solve_before_init",
    "Verif.Iface.C43_io_after_finalize",
    "Verif.Iface.C43_reinit_leaks"
   ],
   "note": "safe histories are characterised exactly; other histories are refuted with witnesses, initialising twice loses the first solver"
  },
  {
   "property": "C44",
   "status": "proved",
   "theorems": [
    "Verif.Iface.toSize_spec",
    "Verif.Iface.C44_decode",
    "Verif.Iface.C44_history_independent",
    "Verif.Iface.C43_solve_on_own_solver"
   ],
   "note": ""
  },
  {
   "property": "C45",
   "status": "partial",
   "theorems": [
    "Verif.C45_symmetrise_partial",
    "Verif.C45_symmetrise_real",
    "Verif.C45_symmetrise_refuted",
    "Verif.C45_then_check_passes",
    "Verif.Mpi.C45_mpi_symmetrise",
    "Verif.Mpi.C45_mpi_refuted"
   ],
   "note": "complex diagonal entries keep their imaginary part; the distributed backend does nothing when built without ScaLAPACK"
  },
  {
   "property": "C46",
   "status": "partial",
   "theorems": [
    "Verif.Gpu.C46_sum_reduce",
    "Verif.Gpu.C46_max_reduce",
    "Verif.Gpu.C46_reduce_ends",
    "Verif.Gpu.C46_sum_reduce_limit",
    "Verif.Gpu.C46_strided_once",
    "Verif.Gpu.C46_residual_partial",
    "Verif.Gpu.C46_residual_ends",
    "Verif.Gpu.C46_residual_ldb_refuted",
    "Verif.Gpu.C46_residual_overflow",
    "Verif.Gpu.C46_trace_overflow",
    "Verif.Gpu.C46_trace_partial",
    "Verif.Gpu.C46_trace_refuted"
   ],
   "note": "every schedule; reductions of all legal block sizes; residual kernel only for equal leading dimensions (refuted otherwise); the trace adds to memory nobody clears (refuted)"
  },
  {
   "property": "C47",
   "status": "partial",
   "theorems": [
    "Verif.Gpu.C47_copy_partial",
    "Verif.Gpu.C47_copy_ends",
    "Verif.Gpu.C47_copy_refuted",
    "Verif.Gpu.C47_copy_overflow",
    "Verif.Gpu.C47_triangles_interchanged",
    "Verif.Gpu.C47_upper_refuted",
    "Verif.Gpu.C47_shift_partial",
    "Verif.Gpu.C47_shift_ends",
    "Verif.Gpu.C47_shift_overflow_refuted",
    "Verif.Gpu.C47_shift_mgpu"
   ],
   "note": "every schedule; the copy fails for multiples of the super block, the triangular copies are interchanged and the shift overflows from order 46341 on, all refuted with witnesses"
  },
  {
   "property": "C48",
   "status": "partial",
   "theorems": [
    "Verif.C48_batch_independent",
    "Verif.C48_cuda_single_partial",
    "Verif.C48_cuda_refuted"
   ],
   "note": "holds for the CPU backends; the CUDA backend uses the coefficients of the first run for all runs"
  },
  {
   "property": "C49",
   "status": "proved",
   "theorems": [
    "Verif.Mpi.C49_same_answers",
    "Verif.Mpi.C49_same_run",
    "Verif.Mgpu.C49_mgpu_same_run",
    "Verif.Sched.C49_no_deadlock",
    "Verif.Sched.C49_runs_end",
    "Verif.Mpi.Spmd.C49_calls_no_deadlock",
    "Verif.Mpi.Spmd.C49_solve_no_deadlock",
    "Verif.Mpi.Spmd.C49_solve_runs_end"
   ],
   "note": "same answers lead to the same calls; multi-GPU for the setups of C60; distributed CPU backend: every process runs the whole solve on its own data and decides on its own, no schedule gets stuck, all have the same length"
  },
  {
   "property": "C50",
   "status": "partial",
   "theorems": [
    "Verif.C50_seq",
    "Verif.C41_inplace_partial",
    "Verif.Mpi.C50_mpi_partial"
   ],
   "note": "residuals up to a permutation because of C06; distributed backend: values and vectors up to a permutation because of C05"
  },
  {
   "property": "C51",
   "status": "proved",
   "theorems": [
    "Verif.C51_approx_solve_defined"
   ],
   "note": ""
  },
  {
   "property": "C52",
   "status": "partial",
   "theorems": [
    "Verif.C52_basis_partial",
    "Verif.C52_basis_refuted",
    "Verif.C52_basis_refuted_many",
    "Verif.C52_ritz_vectors_refuted"
   ],
   "note": "the last copy overwrites the first columns; shown with a witness"
  },
  {
   "property": "C53",
   "status": "partial",
   "theorems": [
    "Verif.C53_bound_tight_partial",
    "Verif.C53_bound_below_spectrum"
   ],
   "note": "the bound is not too large; that it is large enough is refuted"
  },
  {
   "property": "C54",
   "status": "partial",
   "theorems": [
    "Verif.C54_start_vectors_seq",
    "Verif.C54_start_vectors_inplace",
    "Verif.C54_random_start",
    "Verif.Mpi.C54_start_vectors_mpi",
    "Verif.Mpi.C54_random_start_mpi",
    "Verif.Mgpu.C54_start_vectors_mgpu_staged",
    "Verif.C54_cuda_ignores_user_vectors",
    "Verif.C54_cuda_starts_from_zero",
    "Verif.Mgpu.C54_mgpu_aware_refuted",
    "Verif.InPlace.C54_inplace_used_refuted"
   ],
   "note": "sequential backend, in-place backend as constructed, distributed CPU backend, multi-GPU backend with staging; refuted for the CUDA backend, the CUDA-aware multi-GPU backend and the in-place backend after an odd number of rounds"
  },
  {
   "property": "C55",
   "status": "proved",
   "theorems": [
    "Verif.Mpi.C55_grid_independent",
    "Verif.Mgpu.C55_mgpu"
   ],
   "note": "exact arithmetic, approximation mode; distributed CPU backend, and multi-GPU backend in the setups of C60"
  },
  {
   "property": "C56",
   "status": "proved",
   "theorems": [
    "Verif.Sched.C56_schedule_independent",
    "Verif.Mpi.C56_filter",
    "Verif.Mpi.C56_rr",
    "Verif.Mpi.C56_resd",
    "Verif.Mpi.C56_hhQR",
    "Verif.Mpi.C56_cholQR1",
    "Verif.Mpi.Spmd.C56_calls",
    "Verif.Mpi.Spmd.C56_solve"
   ],
   "note": "every schedule of the collective operations; operations on a communicator wait for its members; C56_solve: the whole solve of the distributed CPU backend, with the control flow of every process"
  },
  {
   "property": "C57",
   "status": "proved",
   "theorems": [
    "Verif.C57_call_protocol",
    "Verif.C57_start_end"
   ],
   "note": "for every backend; specification is the transition system Next"
  },
  {
   "property": "C58",
   "status": "proved",
   "theorems": [
    "Verif.Perf.C58_flops",
    "Verif.Perf.C58_filter_within_all"
   ],
   "note": "integer arithmetic, no overflow"
  },
  {
   "property": "C59",
   "status": "partial",
   "theorems": [
    "Verif.Gpu.C59_random_partial",
    "Verif.Gpu.C59_random_distinct",
    "Verif.Gpu.C59_random_ends",
    "Verif.Gpu.C59_no_overflow",
    "Verif.Gpu.C59_loop_variables",
    "Verif.Gpu.C59_overflow_refuted"
   ],
   "note": "every schedule; from 2^31 - 8191 values on an int overflows (refuted)"
  },
  {
   "property": "C60",
   "status": "partial",
   "theorems": [
    "Verif.Mgpu.C60_mgpu_partial",
    "Verif.Mgpu.C60_staged_scalapack_refuted"
   ],
   "note": "setups: staged copies without ScaLAPACK; CUDA-aware with ScaLAPACK, if cudaMemcpy copies between device addresses when told device-to-host. Even maximal degree (as every configuration has, C19). Values and columns are paired up to the rearrangement of the final sort (Swap does nothing on distributed backends). For staged copies with ScaLAPACK the Rayleigh-Ritz step is refuted"
  },
  {
   "property": "C61",
   "status": "partial",
   "theorems": [
    "Verif.Mgpu.C61_staged_partial",
    "Verif.Mgpu.C61_aware_partial",
    "Verif.Mgpu.C61_aware_hhQR_refuted",
    "Verif.Mgpu.C61_aware_copy_refuted"
   ],
   "note": "staged without ScaLAPACK: runs in which the shifted Cholesky QR does not meet dependent columns; CUDA-aware with ScaLAPACK: even maximal degree (as every configuration has, C19), start vectors on the device, copy direction as in C60. The refutations are about single QR calls, the one on the copy direction is conditional on how cudaMemcpy treats a wrong direction"
  },
  {
   "property": "C62",
   "status": "partial",
   "theorems": [
    "Verif.C62_seq",
    "Verif.Mpi.C62_mpi",
    "Verif.InPlace.C62_cuda",
    "Verif.InPlace.C62_inplace_partial",
    "Verif.InPlace.C62_inplace_random",
    "Verif.Mgpu.C62_mgpu_partial",
    "Verif.InPlace.C54_inplace_used_refuted"
   ],
   "note": "sequential and distributed CPU backend (even maximal degree (as every configuration has, C19)); CUDA backend from random start vectors; in-place backend while the pointers of the object are as after construction; multi-GPU backend for the setups of C60, with the start vectors in the buffers in use. In approximation mode the in-place, CUDA and CUDA-aware multi-GPU backends start from what an earlier solve left in an internal buffer"
  },
  {
   "property": "C63",
   "status": "partial",
   "theorems": [
    "Verif.C63_interval_partial",
    "Verif.C63_scaling_point_partial",
    "Verif.C63_lower_end_partial",
    "Verif.C63_first_round_random",
    "Verif.C63_first_round_backends",
    "Verif.C63_refuted_empty_interval",
    "Verif.C63_refuted_scaling_point"
   ],
   "note": "every round: upper end is the Lanczos bound, lower end not above it, with exact descriptions of the lower end and of the scaling point; first round with random start vectors: scaling point <= lower <= upper. Strictness and the place of the scaling point are refuted: approximation mode with too large start values (every backend), and a scripted backend for the scaling point"
  },
  {
   "property": "C64",
   "status": "partial",
   "theorems": [
    "Verif.C64_round",
    "Verif.C64_seq",
    "Verif.Mpi.C64_mpi",
    "Verif.Mgpu.C64_mgpu",
    "Verif.InPlace.C64_inplace",
    "Verif.InPlace.C64_inplace_chol"
   ],
   "note": "single-process and distributed CPU backends for every process grid; multi-GPU backend in the setups of C60, about the buffers it works on; in-place CPU and CUDA backends with Householder QR, and with Cholesky QR for runs without a shifted Cholesky QR of dependent columns. Even maximal degree (as every configuration has, C19); rounds whose interval is proper (C63)"
  },
  {
   "property": "C65",
   "status": "partial",
   "theorems": [
    "Verif.C65_restart",
    "Verif.C65_seq",
    "Verif.Mpi.C65_global",
    "Verif.Mpi.C65_mpi",
    "Verif.Mgpu.C65_mgpu",
    "Verif.InPlace.C65_inplace_partial"
   ],
   "note": "single process, distributed CPU, multi-GPU (setups of C60; the start columns are those the backend works on, C54). In-place: the exact vectors are in an internal buffer and the array of the caller is filled with zeros, proved as part of the theorem; CUDA ignores the start vectors (C54). The bound is that of the Lanczos runs with 1/0 = 0, see C67"
  },
  {
   "property": "C66",
   "status": "partial",
   "theorems": [
    "Verif.C66_geometric",
    "Verif.C66_seq",
    "Verif.Mpi.C66_mpi",
    "Verif.Mgpu.C66_mgpu",
    "Verif.InPlace.C66_inplace",
    "Verif.InPlace.C66_inplace_chol",
    "Verif.one_lt_gain",
    "Verif.gain_le_one"
   ],
   "note": "until the first lock, without degree optimisation, no eigenvalue at a zero of the polynomial; backends as in C64"
  },
  {
   "property": "C67",
   "status": "partial",
   "theorems": [
    "Verif.C67_lanczos_partial",
    "Verif.C67_eigenvector_refuted",
    "Verif.C67_few_eigenvalues_refuted"
   ],
   "note": "exact condition: no division by zero if and only if the Krylov vectors of every start column are independent; the unconditional claim is refuted. The batched CUDA variant with several runs (C48) is not covered"
  },
  {
   "property": "C68",
   "status": "partial",
   "theorems": [
    "Verif.C68_refuted",
    "Verif.C07_locking_arith_partial",
    "Verif.C07_locking_partial",
    "Verif.not_notANumber"
   ],
   "note": "false for every backend: proved for arbitrary arithmetic. What holds: the exact locking rule (C07) with an index list in order, and that the case cannot occur when the residuals are linearly ordered numbers"
  },
  {
   "property": "C69",
   "status": "partial",
   "theorems": [
    "Verif.Fortran.C69_partial",
    "Verif.Fortran.C69_values_refuted",
    "Verif.Fortran.C69_file_refuted",
    "Verif.Fortran.values_pair"
   ],
   "note": "30 of the 36 routines; false for the other six (initialisation for complex single precision, files with complex matrices)"
  },
  {
   "property": "C70",
   "status": "partial",
   "theorems": [
    "Verif.Bounds.C70_seq_refuted",
    "Verif.Bounds.C70_inplace_refuted",
    "Verif.Bounds.C70_mpi_refuted",
    "Verif.Bounds.C70_cuda_refuted",
    "Verif.Bounds.C70_mgpu_refuted",
    "Verif.Bounds.C42_inplace",
    "Verif.Bounds.C42_seq_partial",
    "Verif.Bounds.C42_mpi_partial",
    "Verif.Bounds.C42_cuda",
    "Verif.Bounds.C42_mgpu_partial"
   ],
   "note": "false for every backend as soon as nex > 0 and a round is made; with nev + nex elements the accesses are inside (C42, under its conditions)"
  },
  {
   "property": "C71",
   "status": "partial",
   "theorems": [
    "Verif.Sizes.C71_messages_partial",
    "Verif.Sizes.C71_refuted",
    "Verif.Sizes.C71_files",
    "Verif.Sizes.C71_nccl",
    "Verif.Sizes.complete_iff"
   ],
   "note": "complete if the local blocks of vectors and the projected matrix have fewer than 2^31 elements; false beyond. The copies between the two distributions inside the calls are not listed"
  },
  {
   "property": "C72",
   "status": "partial",
   "theorems": [
    "Verif.Sizes.roundTo_nearest",
    "Verif.Sizes.C72_workspace_partial",
    "Verif.Sizes.C72_reported_partial",
    "Verif.Sizes.C72_double_partial",
    "Verif.Sizes.C72_single_partial",
    "Verif.Sizes.C72_single_refuted",
    "Verif.Sizes.C72_single_complex_refuted",
    "Verif.Sizes.C72_large_refuted"
   ],
   "note": "holds up to order 32766 in double and 2894 in single precision when LAPACK reports its documented minimum, and for every LAPACK that rounds up below 2^31; false in single precision from 2895 on with rounding to nearest, and in every precision from 32767 on"
  },
  {
   "property": "C73",
   "status": "partial",
   "theorems": [
    "Verif.Rounded.C73_residual_partial",
    "Verif.Rounded.C73_eigenvalue_partial",
    "Verif.Rounded.measured_at_end",
    "Verif.Rounded.bookkeeping",
    "Verif.Rounded.exact_eq",
    "Verif.Rounded.Par.C73_residual_mpi_partial",
    "Verif.Rounded.Par.C73_eigenvalue_mpi_partial",
    "Verif.Rounded.Par.C73_processes_partial",
    "Verif.Rounded.Par.accurate",
    "Verif.Rounded.Par.measured_at_end",
    "Verif.Rounded.InPlace.C73_residual_inplace_partial",
    "Verif.Rounded.InPlace.exact_sim",
    "Verif.Rounded.ParGpu.C73_residual_mgpu_partial",
    "Verif.Rounded.ParGpu.C73_eigenvalue_mgpu_partial",
    "Verif.Rounded.ParGpu.C73_processes_mgpu_partial",
    "Verif.Rounded.ParGpu.measured_at_end",
    "Verif.Rounded.ParGpu.frame"
   ],
   "note": "all backends; on the in-place CPU backend for even numbers of rounds (C41), on both in-place backends for runs in which no Cholesky QR fails after it has changed a locked column; the distributed CPU backend and the multi-GPU backend (staged and CUDA-aware) with reproducible reductions (any order), a dense eigensolver with ascending values and a sort that keeps ascending lists; standard model of floating-point arithmetic without overflow and underflow, matrix products with any order of operations, even maximal degree (as every configuration has, C19); the residual stands at the position the pair had before the final sort because of C06; the bound contains a bound of the shifts made during the run"
  },
  {
   "property": "C74",
   "status": "partial",
   "theorems": [
    "Verif.Rounded.C74_drift_partial",
    "Verif.Rounded.C74_refuted",
    "Verif.Rounded.matrix_at_end",
    "Verif.Rounded.Par.C74_drift_mpi_partial",
    "Verif.Rounded.Par.C74_mpi_refuted",
    "Verif.Rounded.InPlace.C74_drift_inplace_partial",
    "Verif.Rounded.InPlace.C74_inplace_refuted",
    "Verif.Rounded.InPlace.C74_cuda",
    "Verif.Rounded.ParGpu.C74_mgpu"
   ],
   "note": "false: refuted for double precision (unbounded exponents) on the sequential, the in-place and the distributed CPU backend; the drift of the diagonal is bounded, entries off the diagonal stay (sequential, in-place and distributed CPU backend). On the single-process GPU backend and the multi-GPU backend the full claim holds, bit for bit, in every arithmetic (multi-GPU: with reproducible reductions)"
  },
  {
   "property": "C75",
   "status": "partial",
   "theorems": [
    "Verif.Memory.C75_memory_grows_refuted",
    "Verif.Memory.C75_seq_partial",
    "Verif.Memory.C75_inplace_partial",
    "Verif.Memory.calls_runs",
    "Verif.Memory.Completed.widths"
   ],
   "note": "false for every backend: each completed solve loses the matrices of its Lanczos step. For the sequential backends the loss is computed exactly; for all backends calls_runs gives the exact list of what a sequence of calls loses. Allocations succeed; memory inside libraries is not counted"
  },
  {
   "property": "C76",
   "status": "partial",
   "theorems": [
    "Verif.Memory.C76_seq_partial",
    "Verif.Memory.C76_destroyed_partial",
    "Verif.Memory.C76_mpi_refuted",
    "Verif.Memory.C76_gpu_refuted",
    "Verif.Memory.lifetime_loses"
   ],
   "note": "nothing is released twice, and an unused object of the sequential backends gives everything back; false for the distributed and the GPU backends. Allocations succeed"
  },
  {
   "property": "C77",
   "status": "partial",
   "theorems": [
    "Verif.Rounded.Par.C77_no_deadlock_partial",
    "Verif.Rounded.Par.C77_runs_end_partial",
    "Verif.Rounded.Par.C77_same_results_partial",
    "Verif.Rounded.Par.C77_outcome_partial",
    "Verif.Rounded.Par.C77_refuted",
    "Verif.Rounded.Par.prog_gives",
    "Verif.Rounded.Par.exact_gOps",
    "Verif.Rounded.ParGpu.C77_mgpu_no_deadlock_partial",
    "Verif.Rounded.ParGpu.C77_mgpu_runs_end_partial",
    "Verif.Rounded.ParGpu.C77_mgpu_same_results_partial",
    "Verif.Rounded.ParGpu.C77_mgpu_outcome_partial",
    "Verif.Rounded.ParGpu.prog_gives"
   ],
   "note": "for every arithmetic and all kernels, provided that a reduction of the same contributions gives the same result on every communicator of a kind and on all its members; false without: refuted for double precision. Distributed CPU backend, and multi-GPU backend (staged and CUDA-aware, whatever the other buffers of the processes hold); a kernel is the same function on every process, and on host and device"
  },
  {
   "property": "C78",
   "status": "partial",
   "theorems": [
    "Verif.Memory.C78_constructed_partial",
    "Verif.Memory.C78_peak_partial",
    "Verif.Memory.C78_estimate_partial",
    "Verif.Memory.C78_gpu_partial",
    "Verif.Memory.C78_grows_refuted",
    "Verif.Memory.C78_householder_refuted",
    "Verif.Memory.session_uses"
   ],
   "note": "false in general; exact memory after construction and an upper bound at any time for every backend; the documented numbers suffice under a condition on the sizes. Elements are counted whatever their type, libraries do not allocate, workspaces have an arbitrary size; one GPU per process"
  },
  {
   "property": "C79",
   "status": "partial",
   "theorems": [
    "Verif.Blas.C79_calls_partial",
    "Verif.Blas.C79_herk_partial",
    "Verif.Blas.C79_status",
    "Verif.Blas.C79_sizes",
    "Verif.Blas.C79_trans",
    "Verif.Blas.C79_workspace",
    "Verif.Blas.C79_dot",
    "Verif.Blas.C79_norm_real",
    "Verif.Blas.C79_norm_complex",
    "Verif.Blas.Cuda.C79_cuda",
    "Verif.Blas.C79_gesvd_refuted",
    "Verif.Blas.C79_pgqr_refuted",
    "Verif.Blas.C79_lange_refuted",
    "Verif.Blas.C79_descinit",
    "Verif.Blas.C79_descinit_refuted"
   ],
   "note": "70 of the 76 instances for BLAS, LAPACK and ScaLAPACK, the other six are described or refuted; all 64 instances for cuBLAS and cuSOLVER. The documented interfaces are a specification written from the documentation of the libraries; descriptors (t_descinit and their use) are right for sizes below 2^31; C72 covers workspace sizes that are rounded"
  },
  {
   "property": "C80",
   "status": "partial",
   "theorems": [
    "Verif.Stream.C80_cuda",
    "Verif.Stream.C80_cuda_calls",
    "Verif.Stream.C80_mgpu_staged",
    "Verif.Stream.C80_mgpu_nccl",
    "Verif.Stream.C80_mgpu_calls",
    "Verif.Stream.C80_mgpu_mpi_partial",
    "Verif.Stream.C80_mgpu_mpi_refuted",
    "Verif.Stream.C80_per_thread_refuted",
    "Verif.Stream.Good.timingIrrelevant",
    "Verif.Stream.C80_cuda_delivers",
    "Verif.Stream.C80_mgpu_delivers",
    "Verif.Stream.C80_staged_delivers",
    "Verif.Stream.C80_cuda_passes_on",
    "Verif.Stream.C80_staged_chol_delivers",
    "Verif.Stream.C80_lanczos_delivers"
   ],
   "note": "holds for one GPU, for several GPUs with communication through host memory and with NCCL; with MPI on device arrays only if the MPI library waits for the device (refuted otherwise). For the usual default stream. Arrays as a whole, communication at once for all its processes"
  },
  {
   "property": "C81",
   "status": "partial",
   "theorems": [
    "Verif.Stream.C81_cuda",
    "Verif.Stream.C81_mgpu_staged",
    "Verif.Stream.C81_mgpu_partial",
    "Verif.Stream.C81_lock_copy_refuted"
   ],
   "note": "all calls but the copy after a Cholesky QR with communication on the devices, where it is false"
  },
  {
   "property": "C82",
   "status": "partial",
   "theorems": [
    "Verif.Scalapack.C82_vectors_partial",
    "Verif.Scalapack.C82_vectors_cyclic_partial",
    "Verif.Scalapack.C82_vectors_block_partial",
    "Verif.Scalapack.C82_vectors_block_refuted",
    "Verif.Scalapack.C82_vectors_communicator_refuted",
    "Verif.Scalapack.C82_hhQR_partial",
    "Verif.Scalapack.C82_matrix_partial",
    "Verif.Scalapack.C82_matrix_source_refuted",
    "Verif.Scalapack.C82_tmp_fits_partial",
    "Verif.Scalapack.C82_tmp_overflow_refuted",
    "Verif.Scalapack.C82_symmetrise_partial",
    "Verif.Scalapack.C82_symmetrise_source_refuted",
    "Verif.Scalapack.C82_symmetrise_padding_refuted"
   ],
   "note": "vectors: on MPI_COMM_WORLD, if the last block of a block distribution is not longer than the others (false otherwise); matrix: if in addition it starts on process row and column 0 and local arrays have no padding (false otherwise). Sizes in the range of int"
  },
  {
   "property": "C83",
   "status": "proved",
   "theorems": [
    "Verif.Nccl.C83_communicators",
    "Verif.Nccl.C83_allreduce",
    "Verif.Nccl.C83_bcast",
    "Verif.Nccl.C83_types",
    "Verif.Nccl.C83_collectives",
    "Verif.Nccl.C83_product_refuted"
   ],
   "note": "exact arithmetic; sums and broadcasts, the only operations the library uses; the last theorem shows that products of complex numbers would be wrong"
  },
  {
   "property": "C84",
   "status": "partial",
   "theorems": [
    "Verif.Rounded.C84_orthonormal_partial",
    "Verif.Rounded.C84_householder",
    "Verif.Rounded.C84_eigenvalue_partial",
    "Verif.Rounded.Par.C84_orthonormal_mpi_partial",
    "Verif.Rounded.Par.C84_householder_mpi",
    "Verif.Rounded.Par.C84_processes",
    "Verif.Rounded.Par.C84_eigenvalue_mpi_partial",
    "Verif.Rounded.InPlace.C84_orthonormal_inplace_partial",
    "Verif.Rounded.InPlace.C84_householder_cuda",
    "Verif.Rounded.InPlace.C84_eigenvalue_inplace_partial",
    "Verif.Rounded.ParGpu.C84_orthonormal_mgpu_partial",
    "Verif.Rounded.ParGpu.C84_householder_mgpu",
    "Verif.Rounded.ParGpu.C84_processes_mgpu",
    "Verif.Rounded.ParGpu.C84_eigenvalue_mgpu_partial"
   ],
   "note": "all backends, the multi-GPU one in setups in which the orthogonalisation leaves a copy of its result (staged, or the copy has ended in time, or Householder QR only), with Householder QR staged or with ScaLAPACK (in the CUDA-aware setup without it the result is lost, C60); on the in-place CPU backend the vectors only after even numbers of rounds (C41), on both in-place backends for runs in which no Cholesky QR fails after it has changed a locked column; the distributed ones with reproducible reductions, a dense eigensolver with ascending values and a sort of indices; complete for Householder QR with a stated error; for the Cholesky variants the accuracy of each QR of the run is a hypothesis. No overflow, underflow or NaN; even maximal degree (as every configuration has, C19)"
  },
  {
   "property": "C85",
   "status": "partial",
   "theorems": [
    "Verif.C85_seq",
    "Verif.C85_inplace_partial",
    "Verif.Mpi.C85_mpi",
    "Verif.Mgpu.C85_mgpu_partial",
    "Verif.Rounded.C85_rounded_partial",
    "Verif.Rounded.Par.C85_rounded_mpi_partial",
    "Verif.Rounded.InPlace.C85_rounded_inplace_partial",
    "Verif.Rounded.ParGpu.C85_rounded_mgpu_partial"
   ],
   "note": "exact arithmetic with LAPACK routines that are exact, and (the rounded theorems, values and all sizes but not the rank bound) floating-point arithmetic with the assumptions of C73 and C84 on the kernels; complete for the sequential and the distributed CPU backend; for the backends working in the user's arrays without runs in which the shifted Cholesky QR meets dependent columns, for the multi-GPU backend only the setups of C60. Even maximal degree (as every configuration has, C19); LAPACK routines exact"
  },
  {
   "property": "C86",
   "status": "partial",
   "theorems": [
    "Verif.C86_seq",
    "Verif.C86_inplace_partial",
    "Verif.Mpi.C86_mpi_partial",
    "Verif.Mgpu.C86_mgpu_partial",
    "Verif.C86_no_abort",
    "Verif.C86_seq_ndebug_refuted",
    "Verif.Mpi.C86_mpi_ndebug_refuted",
    "Verif.C86_cuda_refuted",
    "Verif.Mgpu.C86_mgpu_refuted"
   ],
   "note": "builds with assertions; complete for the sequential backend, with the limits of C41, C50 and C60 for the others; for the GPU backends only if the routines whose info nobody reads do not fail. False for builds without assertions and, for the eigensolver on the GPU backends, for every build: a failure can end as converged pairs"
  },
  {
   "property": "C87",
   "status": "partial",
   "theorems": [
    "Verif.Rounded.C87_cholesky",
    "Verif.Rounded.Par.C87_cholesky_mpi",
    "Verif.Rounded.Par.C87_cholesky_processes",
    "Verif.Rounded.InPlace.C87_cholesky_inplace",
    "Verif.Rounded.ParGpu.C87_cholesky_mgpu",
    "Verif.Rounded.ParGpu.C87_cholesky_processes_mgpu",
    "Verif.Rounded.Two.C87_dependent_refuted"
   ],
   "note": "all backends, with the assumptions of C84 (on the in-place CPU backend only for even numbers of rounds, C41; on the multi-GPU backend only staged, or CUDA-aware with ScaLAPACK and with a copy in device memory that is made although it is declared as one to the host); kernels with a stated error. That each block suits the variant chosen for it (its smallest singular value after scaling the columns, and the shift) is a hypothesis on the run, because the estimate in the code does not look at the block; without it the claim is false (dependent start vectors). No overflow, underflow or NaN"
  },
  {
   "property": "C88",
   "status": "partial",
   "theorems": [
    "Verif.C88_round_partial",
    "Verif.C88_seq_partial",
    "Verif.Mpi.C88_mpi_partial",
    "Verif.InPlace.C88_inplace_partial",
    "Verif.Mgpu.C88_mgpu_partial",
    "Verif.C88_refuted_start",
    "Verif.C88_refuted_order"
   ],
   "note": "exact arithmetic; any backend with the contracts of C64 (first theorem), the sequential and the distributed CPU backend, the in-place CPU and the single-process GPU backend in runs without a shifted Cholesky QR of dependent columns, and the multi-GPU backend in the setups of C60; rounds in which the active block consists of orthonormal eigenvectors, or with equal degrees spans a space of them, with values not above the damped interval and not below the first active Ritz value, and in which the scaling point lies between the first Ritz value of all and the first active one. The full claim is false: refuted for the first QR with random start vectors and for start values that are not in order"
  },
  {
   "property": "C89",
   "status": "partial",
   "theorems": [
    "Verif.Rounded.C89_filter_partial",
    "Verif.Rounded.C89_round_partial",
    "Verif.Rounded.Par.C89_round_mpi_partial",
    "Verif.Rounded.InPlace.C89_round_inplace_partial",
    "Verif.Rounded.ParGpu.C89_round_mgpu_partial"
   ],
   "note": "all backends, the distributed ones with reproducible reductions (multi-GPU staged and CUDA-aware, with products that do not read the target if beta is zero); any backend doing its shifts and products with the kernels (first theorem, one call). Degrees of at least two, an interval of positive length, a scaling point that is not inside it (which the solver does not guarantee, C63), and a precision that suffices for the degree. No overflow, underflow or NaN; even maximal degree (as every configuration has, C19)"
  },
  {
   "property": "C90",
   "status": "partial",
   "theorems": [
    "Verif.C90_seq",
    "Verif.C90_inplace_partial",
    "Verif.Mpi.C90_mpi",
    "Verif.Mgpu.C90_mgpu_partial",
    "Verif.Rounded.C90_rounded_partial",
    "Verif.Rounded.Par.C90_rounded_mpi_partial",
    "Verif.Rounded.InPlace.C90_rounded_inplace_partial",
    "Verif.Rounded.ParGpu.C90_rounded_mgpu_partial",
    "Verif.Rounded.C90_ritz_partial",
    "Verif.Rounded.C90_householder",
    "Verif.Rounded.Par.C90_ritz_mpi_partial",
    "Verif.Rounded.Par.C90_householder_mpi",
    "Verif.Rounded.InPlace.C90_ritz_inplace_partial",
    "Verif.Rounded.InPlace.C90_householder_inplace",
    "Verif.Rounded.ParGpu.C90_ritz_mgpu_partial",
    "Verif.Rounded.ParGpu.C90_householder_mgpu"
   ],
   "note": "exact arithmetic with LAPACK routines that are exact, and (the rounded theorems) floating-point arithmetic as in C85 up to the bound of C85 for each value, which contains the returned residuals; also (the ritz and householder theorems) up to rounding errors alone, a bound without residuals that vanishes with the unit roundoff and the errors of QR and of the dense eigensolver, if every call of QR is accurate (with Householder QR: if that routine is), on the multi-GPU backend in setups in which the device and the second buffer hold the result of every call of QR; complete in exact arithmetic for the sequential and the distributed CPU backend; for the backends working in the user's arrays without runs in which the shifted Cholesky QR meets dependent columns, for the multi-GPU backend only the setups of C60; even maximal degree (as every configuration has, C19)"
  },
  {
   "property": "C91",
   "status": "partial",
   "theorems": [
    "Verif.C91_seq",
    "Verif.C91_inplace_partial",
    "Verif.Mpi.C91_mpi_partial",
    "Verif.Mgpu.C91_mgpu_partial",
    "Verif.Rounded.C91_rounded_partial",
    "Verif.Rounded.Par.C91_rounded_mpi_partial",
    "Verif.Rounded.InPlace.C91_rounded_inplace_partial",
    "Verif.Rounded.ParGpu.C91_rounded_mgpu_partial",
    "Verif.Rounded.C91_quadratic_partial",
    "Verif.Rounded.C91_householder",
    "Verif.Rounded.InPlace.C91_quadratic_inplace_partial",
    "Verif.Rounded.InPlace.C91_values_inplace_partial",
    "Verif.Rounded.Par.C91_quadratic_mpi_partial",
    "Verif.Rounded.ParGpu.C91_quadratic_mgpu_partial"
   ],
   "note": "exact arithmetic; residuals up to a permutation because of C06, on the distributed backends values and vectors too because of C05; on the in-place CPU backend only for even numbers of rounds (C41), on the in-place backends without runs in which the shifted Cholesky QR meets dependent columns, multi-GPU only the setups of C60. In floating-point arithmetic the bound for the vectors needs the assumptions of C73, that for the values also those of C90: every call of QR is accurate (with Householder QR this is an assumption about the kernel only), and a dense eigensolver with small residuals; the bound for the values on the multi-GPU backend only in the setups of C90"
  },
  {
   "property": "C92",
   "status": "partial",
   "theorems": [
    "Verif.Blas.Cuda.C92_cuda_partial",
    "Verif.Blas.Cuda.C92_mgpu_partial",
    "Verif.Blas.Cuda.C92_refuted_without"
   ],
   "note": "both GPU backends; the library is taken to ask for no less for a larger eigenproblem, which its documentation does not promise (refuted without)"
  },
  {
   "property": "C93",
   "status": "partial",
   "theorems": [
    "Verif.Device.C93_own_gpu_partial",
    "Verif.Device.C93_one_visible_partial",
    "Verif.Device.C93_error_printed",
    "Verif.Device.C93_shared_refuted",
    "Verif.Device.C93_silent_refuted"
   ],
   "note": "holds if the processes of a node see the same GPUs and these suffice, or if each sees one of its own; otherwise all processes of the node share one GPU, nothing terminates, and the error is printed only if the node of process 0 is concerned. cudaGetDeviceCount is taken to succeed"
  },
  {
   "property": "C94",
   "status": "partial",
   "theorems": [
    "Verif.Examples.C94_sequence_partial",
    "Verif.Examples.C94_hello_partial",
    "Verif.Examples.C94_hello_refuted",
    "Verif.Examples.C94_c_serial_refuted",
    "Verif.Examples.C94_c_dist_refuted",
    "Verif.Examples.C94_f_serial_refuted",
    "Verif.Examples.C94_f_dist_refuted",
    "Verif.Examples.C94_sequence_cyclic_partial",
    "Verif.Examples.C94_hello_cyclic_partial",
    "Verif.Examples.C94_hello_cyclic_refuted"
   ],
   "note": "holds for the sequence of problems (with block-cyclic distribution on processes that own something) and, on one process, for the first example and the one for an installed library; these two write behind their array on more processes, the Fortran example on one process writes behind its array, and the C and distributed Fortran examples leave entries of the matrix unassigned. For 2_input_output see C95"
  },
  {
   "property": "C95",
   "status": "partial",
   "theorems": [
    "Verif.Examples.Driver.C95_block_partial",
    "Verif.Examples.Driver.C95_cyclic_partial",
    "Verif.Examples.Driver.C95_mode_refuted",
    "Verif.Examples.Driver.C95_defaults_refuted",
    "Verif.Examples.Driver.C95_major_refuted",
    "Verif.Examples.Driver.C95_status_partial",
    "Verif.Examples.Driver.C95_status_refuted",
    "Verif.Examples.Driver.C95_generated_refuted"
   ],
   "note": "the problems and their configuration are as asked for if mode is given; false for the kind of start vectors (mode is never used), for the defaults (rejected), for major and icsrc, for the exit status of a run that meets a file of a wrong size or is asked for single precision (of the rest C95_status_partial), and for generated matrices with block-cyclic distribution. The option parser popl is specified, not modelled"
  },
  {
   "property": "C96",
   "status": "partial",
   "theorems": [
    "Verif.Gpu.C96_cuda",
    "Verif.Gpu.C96_mgpu_partial",
    "Verif.Gpu.C96_copy_partial",
    "Verif.Gpu.C96_copy_empty",
    "Verif.Gpu.C96_copy_refuted",
    "Verif.Gpu.launch_blocks"
   ],
   "note": "holds for the single-process GPU backend up to order 2^31-256; for the multi-GPU backend except for copies whose number of rows or columns is a multiple of 4194240, which launch no blocks. Launches of the libraries are not modelled"
  },
  {
   "property": "C97",
   "status": "partial",
   "theorems": [
    "Verif.Memory.C97_host",
    "Verif.Memory.C97_gpu_partial",
    "Verif.Memory.C97_gpu_refuted",
    "Verif.Memory.C97_pinned_refuted",
    "Verif.Memory.C97_lanczos_refuted",
    "Verif.Memory.C97_requests",
    "Verif.Memory.C97_unchecked",
    "Verif.Memory.C97_unchecked_call"
   ],
   "note": "holds for the backends without GPU. On GPUs it is false: the status of cudaMalloc and cudaMallocHost is not looked at for the matrices, so that a constructor returns although the matrix could not be allocated on the device (C97_gpu_refuted), or writes through an unset pointer (C97_pinned_refuted), and the Lanczos call goes on without its vectors (C97_lanczos_refuted); C97_gpu_partial is the part that holds, C97_unchecked and C97_unchecked_call list the requests it leaves out. C97_requests ties the requests to the resources of C75, C76 and C78. What callers and other processes do after an exception is not modelled"
  },
  {
   "property": "C98",
   "status": "partial",
   "theorems": [
    "Verif.Seq.C98_seq_partial",
    "Verif.Mpi.C98_mpi_partial",
    "Verif.InPlace.C98_inplace_partial",
    "Verif.Mgpu.C98_mgpu_partial",
    "Verif.Mgpu.avoids_iff",
    "Verif.Mgpu.refAvoids_eigen",
    "Verif.Seq.C98_seq_basis",
    "Verif.InPlace.C98_inplace_basis",
    "Verif.InPlace.sim_rot",
    "Verif.InPlace.avoids_eigen",
    "Verif.Seq.sim_rot",
    "Verif.Seq.avoids_eigen",
    "Verif.Mpi.gAvoids_eigen",
    "Verif.Mpi.avoids_of_glob",
    "Verif.Lapack.Ok.rot",
    "Verif.Seq.C98_householder_refuted",
    "Verif.Lapack.Ok.signed"
   ],
   "note": "C98_seq_partial, C98_mpi_partial, C98_inplace_partial, C98_mgpu_partial: approximation mode, one LAPACK for both bases, for runs in which QR does not end in Householder QR, on the sequential, in-place CPU, single-GPU, distributed CPU and multi-GPU backends (the last two also with different grids for the two bases); the theorems avoids_eigen, gAvoids_eigen and refAvoids_eigen give such runs and the examples have one with Cholesky QR. C98_seq_basis, C98_inplace_basis: all runs of the sequential, in-place CPU and single-GPU backends, also with random start vectors, if the random numbers and the Householder QR are taken along to the new basis (Lapack.Ok.rot: the LAPACK so obtained meets the contracts of LAPACK). Missing: runs of the first four with Householder QR, of which the contract leaves the signs open (Seq.C98_householder_refuted: there is a LAPACK meeting the contract for which one Householder QR of the sequential backend depends on the basis, already for Q = -1; that such a difference reaches the output of a whole run is not shown); on the multi-GPU backend with CUDA-aware communication the start vectors are those in device memory, not those of the user (C54_mgpu_aware_refuted)."
  },
  {
   "property": "C99",
   "status": "partial",
   "theorems": [
    "Verif.Seq.C99_seq_partial",
    "Verif.InPlace.C99_inplace_partial",
    "Verif.Mpi.C99_mpi_partial",
    "Verif.Mgpu.C99_mgpu_partial",
    "Verif.Seq.sim_c",
    "Verif.InPlace.sim_c",
    "Verif.Mpi.gSim_c",
    "Verif.Mgpu.refSim_c",
    "Verif.Lapack.over_extends",
    "Verif.Lapack.Ok.over",
    "Verif.Seq.C99_lapack_refuted"
   ],
   "note": "C99_seq_partial: sequential backend; C99_inplace_partial: in-place CPU and single-GPU backends; C99_mpi_partial and C99_mgpu_partial: distributed CPU and multi-GPU backends, where the two versions may also run on different grids. Each in approximation mode, if potrf, geqrf/gqr and heevd for complex matrices do with real matrices what those for real matrices do (Lapack.Extends; their contract leaves signs open, and bases of eigenspaces); Lapack.over_extends and Lapack.Ok.over: such LAPACK routines that meet their contracts exist for every real LAPACK that does. The random numbers of the two versions may differ. C99_lapack_refuted: without that assumption the contract of LAPACK is not enough: a complex Householder QR that meets it may turn real vectors into vectors that are not real. Missing: a version up to phases for such LAPACK routines."
  }
 ]
}
# Formal model of ChASE in Lean 4: design

Source: `/repo` (ChASE, C++/CUDA). Nothing is built or run; the model is written by reading.
Lean project: `/verif/lean` (Lean 4.33.0, single Mathlib modules imported where needed).

## Layout

Each topic is a directory `lean/Verif/<Topic>/`:

* `Model.lean`  definitions only; each cites the file and lines it models and states each simplification;
* `Spec.lean`   (where useful) small specification vocabulary independent of the model's helpers;
* `Proof.lean`  helper lemmas;
* `Props.lean`  the property theorems (`Cnn_...`), each followed by `example`s showing that a concrete,
  non-trivial case satisfies the hypotheses.

`Verif/Base` holds the loop combinators (C++ `for` loops as folds over ranges) and the error type.

## Modelling conventions

* Undefined behaviour (out-of-range access, wrap-around of an unsigned subtraction that is then used as a size,
  use of an uninitialised value, use after free, double free, null dereference) is an explicit error
  outcome (`Except Err`), never silently totalised.
* `size_t`/`int` are `Nat`/`Int`. Wrap-around is only represented where the code can reach it (explicit guard
  and error outcome); overflow of products such as `n*ld` past 2^64 is not modelled. The GPU kernels index with
  32-bit `int`; there overflow is modelled, as the error outcome of the launch.
* Floating point: the solver (Solver/Model, Config/Model, Interface/Model) is written over any type with the operations
  `+ - * /`, negation, `0`, `1`, conversion from naturals and a decidable `<`, and assumes no law about them. So it covers
  binary64 arithmetic with rounding, infinities and NaN, operation by operation in the order of the code
  (Solver/ArithProps has instances). Which laws a theorem uses can be read off its class
  arguments: the ten operation classes only (termination, accounting, frozen pairs, pairing, work count, safety of the filter,
  degrees, protocol, buffer accesses, performance counters, C68), additionally `LinearOrder` (claims about ascending order, and C07,
  C63), or an ordered field (C22, first round in C63). In single precision the code computes some intermediate results of
  `filter` and `lanczos` in `double`; the model has one scalar type.
  The sequential backend and the distributed CPU backend are also given over arbitrary kernels (Rounded/Seq, Rounded/Par), as are the two backends with in-place buffers (Rounded/InPlace) and the multi-GPU backend (Rounded/ParGpu). The models in Backend and the polynomial (Filter) are over `ℝ`, `ℂ` or any `RCLike` field, that is exact arithmetic.
  Where a decision of a backend depends on NaN (QR selection), comparisons are parameters.
* BLAS/LAPACK/cuBLAS calls are replaced by their mathematical specification (`gemm` is
  `alpha*A*B+beta*C` on the addressed column range, `heevd` any diagonalisation with ascending values,
  `potrf` any Cholesky factor or a failure code). MPI collectives are replaced by their specification
  (`Allreduce(SUM)` = sum over the members of the communicator, in any order).
* Theorems about whole solves assume `Even cfg.maxDeg`. `C19_degrees_even` proves this of every configuration made by the
  constructor and any sequence of setters, so it excludes nothing a user can do.
* Random initial vectors are arbitrary parameters. Environment variables are parameters.

## Plan per property

| id | what is modelled | how it is proved |
|----|------------------|------------------|
| C01 | `Algorithm::solve` as a loop over an oracle backend that may answer anything | fuel/measure argument: loop counter |
| C02 | same, `locking` result bound | loop invariant |
| C03 | same, arrays `ritzv_`, `resid_`, columns | frame invariant through `calc_degrees`, `filter`, `RR`, `Resd`, `locking`; distributed CPU and multi-GPU backends by simulation on global data (`Mpi.C03_mpi`, `Mgpu.C03_mgpu`) |
| C04 | final exchange sort | invariant of nested loops: sorted prefix + permutation |
| C05 | final sort and degree sort with each backend's `Swap` | simulation: pair list is permuted; MPI `Swap` is the identity, so negation with witness: a run of two rounds computed by hand, with any kernels that do what is documented (Backend/NoSwapRun) |
| C06 | final sort without residual swap | negation with witness; partial theorem when already sorted |
| C07 | `locking` | invariant; general claim refuted (stale index), proved for sorted values |
| C08 | `solve` with call trace | case analysis for all states |
| C09 | `checkSymmetryEasy` over matrices | linear algebra |
| C10 | `filter` with two-buffer toggle backend | invariant: column j after k multiplications holds `p_min(k,d_j)(A) v_j`; Mathlib Chebyshev polynomials; distributed CPU and multi-GPU backends by simulation on global data (`Mpi.C10_mpi`, `Mgpu.C10_mgpu` in Backend/FilterDistProps) |
| C11 | `filter` with pointer swap backend | same invariant with swapped buffers, then relational corollary |
| C12 | `filter` counters | invariant |
| C13 | `shiftMatrix` seq, in-place, distributed and multi-GPU (device and host copy) | algebra |
| C14 | polynomial `p_d` over ℝ | Chebyshev bounds; then C10/C11 on each backend |
| C15 | `filter` pointer walk with bounds checks | error-freeness theorem and UB witness for degree 0 |
| C16 | `calc_degrees` | loop invariants |
| C17 | `calc_degrees` exchange loop | permutation invariant |
| C18 | degree formula over ℝ | log/ceil inequality |
| C19 | `ChaseConfig` as a record with setters | case analysis, induction over setter sequences |
| C20 | `ChaseMpi::Lanczos` upper bound | max over list |
| C21 | `mLanczos` recurrence over an inner product space | induction; distributed by simulation (Backend/PhaseDistProps) |
| C22 | density-of-states selection with explicit errors | case analysis; UB witnesses; partial theorem with guards |
| C23 | intersperse loop | permutation invariant |
| C24 | `ChaseMpi::QR` decision logic | case analysis |
| C25 | Gram matrix / triangular solve algebra | linear algebra |
| C26 | buffer copies around QR | case analysis over columns; distributed CPU and multi-GPU backends by simulation (Backend/PhaseDistProps) |
| C27 | Rayleigh-Ritz algebra | linear algebra; distributed CPU and multi-GPU backends by simulation (Backend/PhaseDistProps) |
| C28 | residual bound | spectral theorem (Mathlib) |
| C29 | `numroc` | counting argument |
| C30 | block-cyclic tables | index arithmetic |
| C31 | block constructors with wrap-around as error | index arithmetic; witness for the failing grids |
| C32 | `create2DGrid` | div/mod arithmetic |
| C33 | local gemm + allreduce, distributed CPU and multi-GPU | sum over a partition; multi-GPU by `apply_view` |
| C34 | four nested loops of `shiftMatrix`; the index lists of the multi-GPU backend | index bijection |
| C35 | scatter/gather copies | index bijection |
| C36 | run tables | induction over the table construction; witness for non-zero source |
| C37 | read loops | index bijection |
| C38 | local products + allreduce; residuals also on the multi-GPU backend | sum over a partition |
| C39 | `PerformanceDecorator` as a trace fold | induction over solver trace |
| C40 | clocks as a trace fold | induction over solver trace; witness for repeated print |
| C41 | pointer parity of in-place backend | trace induction; runs with Cholesky QR via an auxiliary backend that agrees with the code in every QR call of the run (Solver/Watch); negation for odd iteration counts |
| C42 | constructor argument order, buffer sizes and the elements every call touches, for all backends (host and device arrays) | arithmetic over the call protocol of C57; negation when nex > nev, for too many Lanczos runs, for uneven distributions, for objects used before |
| C43 | C interface as a state machine per scalar type | invariant over call sequences, UB witnesses |
| C44 | C interface option decoding | case analysis |
| C45 | `symOrHermMatrix` loops | loop invariant |
| C46 | kernels with barriers as jobs of an interleaving semantics | race freedom, uniqueness of the final memory of every schedule, induction over the stages of the reduction |
| C47 | copy and shift kernels in the same semantics, tile arithmetic | race freedom, index bijection; witness for exact multiples and for 32-bit overflow |
| C48 | batched Lanczos | relational; witness for the GPU `axpy_batch` |
| C49 | several copies of `solve` with equal oracle answers; every process of the distributed CPU backend with its own program, data and decisions | trace determinism; confluence of programs that meet in collective operations |
| C50 | `solve` on the sequential and the distributed CPU backend | contracts of the backend + C03, C05, C06, C13, C27; distributed: refinement to one global matrix |
| C51 | `solve` in approximation mode over any backend with finite answers | error-freeness of every phase (degrees, filter, sort) |
| C52 | `LanczosDos` and the copies behind it | column algebra; witness for the overwritten columns |
| C53 | the bound of `Lanczos` against the spectrum | spectral theorem; witness: start vector orthogonal to the top eigenvector |
| C54 | `initVecs`/constructor of every backend in approximation mode | case analysis; negation for the CUDA backend |
| C55 | distributed CPU or multi-GPU backend on two grids | both refine the same global backend (simulation) |
| C56 | processes as independent automata with collective operations | diamond property: all maximal runs end alike; operations of the backend shown to be of that form; for a whole solve from the programs of C49 |
| C57 | the calls `solve` makes on the backend | transition system `Next` written from the documentation; induction over all runs |
| C58 | `ChasePerfData::get_flops`, `get_filter_flops` | arithmetic over the call trace |
| C59 | random number kernels | race freedom, every entry written once; overflow witness |
| C60 | host and device buffers of every process, all copies between them | simulation along the phases of a solve (`Solver/SimPhase`): which copy is up to date in which phase; then the contracts of C50 on global data |
| C61 | both distributed backends | both refine backends on global data; these agree except in named QR calls |
| C62 | two runs on objects with different contents | relational simulation: the scratch buffers are written before they are read |
| C63 | the three numbers the filter is called with in a round (`FilterRuns`), for every state at the head of a round | invariant over the rounds (the upper end never changes), `max_element`/`min_element` characterised; the first round through the density search (C22) and the bound of the Lanczos runs (C20); the strict statement refuted |
| C64 | the columns at the head of a round and after it (`Step`) | the filter of a round is a polynomial in the matrix applied column by column (C10), QR, Rayleigh-Ritz and swaps keep the span of the columns; invariant over the rounds on an abstract backend (`Backs`), instances for the backends |
| C65 | `solve` in approximation mode | C64 on an invariant space: no gain vanishes, Rayleigh-Ritz on it is exact, residuals are zero, everything is locked in the first round |
| C66 | the rounds until the first lock | C64 iterated; components along eigenvectors grow by the value of the Chebyshev polynomial outside, and do not grow inside the interval; the values by the Rayleigh quotient of a vector of the space |
| C67 | `mLanczos` with every used quotient checked | Lanczos vectors span Krylov spaces; a divisor vanishes exactly when these stop growing |
| C68 | the solver over a type with comparisons that may all be false | invariant: the first round locks everything; negation for every backend |
| C69 | the argument lists of the 36 Fortran declarations and of the C functions they are bound to; arrays as bytes in memory | elements written with one element size and read with another; negation for the six routines that differ |
| C70 | the accesses of C42 with an array of `nev` values | `RR` of the first round writes up to `nev + nex - 1`, for every backend; negation |
| C71 | the lengths of all messages of each backend call and of the file transfers, converted to `int`; reductions and broadcasts of a given count | conversion is exact below 2^31; call protocol (C57) bounds the lengths; the first `RR` gives the negation |
| C72 | the workspace size LAPACK reports as a floating-point number, rounded and converted; the documented minimum | arithmetic on the rounding; negation for a range of orders in single precision, and for all large orders |
| C73 | the sequential backend with arbitrary kernels in place of BLAS and LAPACK (Rounded/Seq); kernels that round every operation, in any order (Rounded/Error) | C06 over arbitrary arithmetic gives the inputs of each reported residual; error of inner products by induction over the order of operations; drift of the matrix as in C74. Distributed backend: the kernels on the parts and the reductions make up one accurate arithmetic (`Par.accurate`), bookkeeping with the generic proof for backends whose `Swap` does nothing. In-place and single-process GPU backend (Rounded/InPlace, with exact kernels the model of Backend/InPlace by `exact_sim`): the runs without a Cholesky QR that fails after it has changed a locked column are runs of a backend that keeps the bookkeeping contract (Rounded/InPlaceRun, Rounded/InPlaceProps); C84, C85, C90 and C91 in the same way. Multi-GPU backend, all setups: a Rayleigh-Ritz step leaves the vectors on the device and in the second buffer, so the residuals right after it are those of the vectors (Rounded/ParGpuRun) |
| C74 | same; the numbers added to the diagonal during a solve | they come in pairs `-c`, `c` by the call protocol (C57); error of a pair; a run in 53-bit arithmetic as witness of the negation, for the sequential and the in-place CPU backend; on the distributed one, where the run is not computable, the record of the calls gives the only shift of a solve of one round. The GPU backend works on a copy, so the claim holds there (`InPlace.C74_cuda`), as it does on the multi-GPU backend (`ParGpu.C74_mgpu`) |
| C75 | a heap of resources; what construction, each backend call and destruction acquire and release (Memory/Model) | separation triples: each program returns all it acquires but a list that is computed exactly; by C57 every completed solve makes one Lanczos call, which loses its matrices; negation for every backend |
| C76 | same | the constructors and destructors compared by the triples; counts of each kind over any number of objects |
| C77 | the programs of all processes of the distributed backend with arbitrary kernels, numbers and reductions (Rounded/Par), and of the multi-GPU backend with host and device buffers of every process (Rounded/ParGpu); schedules as in C49, C56 | with reductions that do not depend on the communicator the kernels of all processes make up one arithmetic on global vectors (`distArith`); simulation call by call; a run in 53-bit arithmetic with two orders of summation as witness of the negation |
| C78 | the programs of Memory/Model with a record of everything that was ever held (`Heap.past`); the formulas of docs/installation/suggestion.rst as numbers of elements | a potential argument bounds what is held during every call (`Uses`, Memory/Peak); sizes of the temporaries from the protocol C57; exact size after construction; the negation by what the object keeps after a Householder QR (Memory/Kept) and by C75 |
| C79 | for each of the 76 instances of the wrappers in blas_templates.inc the routine called, the objects passed and the workspaces; the same for the 64 instances in blas_cuda_wrapper.hpp (Blas/Cuda); the interfaces in the documentation of the libraries as specification (Blas/Spec, Blas/CudaProps) | all cases of wrapper and scalar type; bytes in memory as for C69; the negation for six instances |
| C80 | a machine with hosts that hand work to devices and devices that run it in any order the stream rules allow (Stream/Machine, not code); for every call of the two GPU backends the routines, streams, arrays and communications (Stream/Model); the effects are arbitrary functions | an invariant with the position up to which each device has come (Stream/Proof): device and host arrays are those of two positions of the execution in order; progress by the process furthest behind. Two executions as counterexamples |
| C81 | same items; which memory each routine may be given as specification | cases of calls |
| C82 | contexts, descriptors, `hhQR` and `symOrHermMatrix` with ScaLAPACK on the arrays in memory (Scalapack/Model); process grids, descriptors, index functions and `DESCINIT` of the ScaLAPACK guide, and what a routine may read and write, as specification (Scalapack/Spec) | the tables of C31 and the index functions of ScaLAPACK describe the same map (Scalapack/Proof); refutations for oversized last blocks, other communicators, first process not 0, padded local arrays |
| C83 | making of the NCCL communicators and the two wrappers (Nccl/Model); rules of NCCL and meaning of the MPI operations as specification (Nccl/Spec) | from the bijection between ranks and coordinates (C32); complex sums are pairs of real sums |
| C84 | the sequential and the distributed backend with arbitrary kernels (Rounded/Seq, Rounded/Par); specification of an accurate QR factorisation, of the product with the small matrix and of its eigenvectors, and of nearly orthonormal vectors (Rounded/OrthoLin, Rounded/Ortho) | invariant of the rounds: the locked vectors are nearly orthonormal and were, when they were locked, the product of a nearly orthonormal block with a nearly orthonormal matrix, the block being the part of a QR factor behind the locked vectors. Multi-GPU backend (Rounded/ParGpuOrtho): the same invariant for the setups in which the second buffer gets a copy of the QR factor; it does not matter which small matrix the Rayleigh-Ritz step builds. The bound is the same in every round because locked vectors are put back after QR. With Householder QR an assumption on the kernel, with the Cholesky variants one on the run (C87) |
| C85 | no new code: the four backends with exact arithmetic; specification of the list of eigenvalues (zeros of the characteristic polynomial with multiplicities) and of values that stand for different ones (Backend/DistinctProps) | from the certified pairs of C50, C41 and C60. For every interval spanned by some of the values, widened by ε, the vectors belonging to them and the invariant subspace of the eigenvalues outside cannot both be too large (dimension count), so the widened interval holds enough eigenvalues; Hall's theorem then gives the injection (Backend/Distinct). The bound on the rank follows by counting. In floating-point arithmetic (Rounded/DistinctProps) the same lemma is used with the vectors of C84, which are orthonormal only up to τ, and the residual bound of C73; the spread of the values enters with a factor that vanishes with τ |
| C86 | the statuses (`info`) that library routines report and the assertions that look at them (Backend/Status); a solve of a build with assertions, which may end without a result (Solver/Guard) | a build that is not aborted has done what it would do with routines that never fail (`Lapack.repaired`), so the theorems C50, C41, C60 apply. Refutations: with an eigensolver that fails and leaves zeros every pair looks converged after one round (Solver/Blank) |
| C87 | the three Cholesky QR routines over arbitrary kernels (Rounded/Chol: `CholKern`), shown to be those of the sequential and the distributed model (`UsesChol`), and with the return values of the other two those of the in-place and the single-GPU backend (Rounded/InPlaceCholProps) and of the multi-GPU one (Rounded/ParGpuCholProps); specification of the accuracy of Gram matrix, Cholesky factorisation, triangular solve and shift (`CholAcc`, `CholPar`), of the condition of a block after scaling its columns (`Conditioned`) and of what each variant needs (`Suited`) (Rounded/CholLin, Rounded/CholProps) | one pass gives a block within `132 n sqrt(n) e / σ²` of an orthonormal one with the same span as the given block up to rounding errors; the first pass of `cholQR2` and of the shifted variant leaves a condition of at most a constant, so the second is accurate to `528 n sqrt(n) e` whatever `σ` was. Then C84; on the backends that work in place a Cholesky QR that fails on such a block has not changed it yet. That the blocks of a run suit the routines stays a hypothesis: the code's estimate looks at the Ritz values and the degrees only |
| C88 | no new code: the estimate in Solver/RealPlat and the watch on QR calls of Solver/Watch; specification of the condition number of a block (`CondAtMost`), of a number that is too small (`Underestimates`) and of a round in which the block is in reach of the filter (`SettledRound`) (Backend/Estimate, Backend/EstimateProps, Backend/EstimateInPlaceProps) | the filter scales eigenvectors by quotients of Chebyshev polynomials, which outside the damped interval are the sum of a power of `rho` and its inverse; the quotient of any two of these factors is at most the estimate. Stays partial: the block must consist of orthonormal eigenvectors (or, with equal degrees, span a space of them) below the damped interval, and the values must be in order. Without that the claim is false |
| C89 | no new code: `filter` of Solver/Model with the rounded backends of C73; specification of kernels with a stated error (`RealAccurate`, `FilterAccurate`, for the parts on the processes `FilterAccuratePar`), of an interval that differs by rounding (`NearInterval`) and of the result (`Filtered`, with the bounds `filterEta`, `filterSlack`) (Rounded/FilterError, Rounded/FilterErrorProps, Rounded/InPlaceFilterProps, Rounded/ParGpuFilterProps) | the columns obey a perturbed three-term recurrence; the perturbations are summed with Chebyshev polynomials of the second kind, which are at most (k+1) T_k outside the interval (Rounded/Cheb); the computed scaling factors are compared with T_d at the computed point by the same recurrence; the matrix of a round differs from the one handed in by the drift of C74; products on the parts and the reduction have an error bound of the same kind as one product; the backends that exchange their buffers are seen through a view with fixed buffers, every product being with the matrix itself; a filter call of the multi-GPU backend is related to one of the distributed backend, the columns still needed being on the device when `beta` multiplies them |
| C90 | no new code: the four backends with exact arithmetic; specification of the list of eigenvalues as for C85 (Backend/VariationalProps) | from the orthonormal vectors and Rayleigh quotients of C50, C41 and C60, by Ky Fan's inequality, proved from the spectral theorem (Backend/Variational). Sums do not depend on the order, so nothing is lost on the distributed backends by C05. Not claimed: that the i-th value is at least the i-th eigenvalue (a locked vector is only nearly an eigenvector; C85 bounds by how much it can be below). In floating-point arithmetic up to the bound of C85 for each value, from C85 (Rounded/SumProps). Also up to rounding errors alone (Rounded/RitzProps, Rounded/RitzParProps, Rounded/InPlaceRitzProps, Rounded/ParGpuRitzProps): every column is followed from the last Rayleigh-Ritz step that wrote it to the end (Solver/Still, Rounded/RitzRun, Rounded/RitzPar, Rounded/InPlaceRitz, Rounded/ParGpuRitz; on the multi-GPU backend the device must hold the result of every orthogonalisation, which excludes staged copies with ScaLAPACK, and CUDA-aware Cholesky QR without a completed copy), the value is a Rayleigh quotient up to the errors of the products and of the dense eigensolver (Rounded/Ritz), and Ky Fan's inequality is applied to nearly orthonormal vectors |
| C91 | no new code; specification of the sums of eigenvectors near a value, and of both bounds (Backend/VariationalProps); in floating-point arithmetic the backends of C73 (Rounded/VectorProps, Rounded/QuadraticProps, for the multi-GPU backend Rounded/ParGpuOrthoProps and Rounded/ParGpuRitzProps) | expansion of the residual in the eigenvectors, and Temple's inequality (Backend/Variational); in floating-point arithmetic for the vectors from C73, for the values from C73, from the values being Rayleigh quotients up to rounding errors (C90) and from Temple's inequality for vectors of norm near one (Rounded/Temple) |
| C92 | the sizes the GPU backends ask cuSOLVER about, the workspace they allocate, and the calls that use it (Blas/Cuda); the library as a function from calls to sizes | arithmetic on the maximum; a library that is not monotone as counterexample |
| C93 | the choice of the device in the constructors of `ChaseMpiProperties`, for any placement of processes on nodes; the shared-memory communicator by its specification (Dist/Device) | ranks on a node are different and below the number of devices; general statement and witness for nodes with too few |
| C94 | the arrays of the example programs with sizes and unassigned elements, the loops that fill them and perturb the matrix (Examples/Model), the block-cyclic branches with the tables of C30 (Examples/Cyclic); square roots and random numbers are parameters | loop invariants: which elements are assigned and with which entry of one matrix; general refutations for the programs that fail |
| C95 | options, defaults, targets, checks and the loop over the problems of the driver (Examples/Driver); the parser popl by its documentation; file sizes are a function | the value of every member after any list of options is the last one given; induction over the problems; counterexamples by computation |
| C96 | grids and block sizes of all launches of shift.cu, and which launches a call of the backend interface makes (Gpu/Launch); the limits of CUDA are the specification | the call protocol (C57) gives that fewer than `nev` pairs are locked when residuals are computed; arithmetic for the rest; the grids are those of the kernels of C46, C47, C59 |
| C97 | every request for memory of the constructors and calls, with what the code does if it is refused (Memory/Fail); an allocator that may refuse any request, depending on all requests before | the requests are proved to be the acquisitions of Memory/Model, in order; no request of the backends without GPU is unchecked, hence by induction a refused one stops the program; negation on GPUs for every problem whose matrix does not fit |
| C98 | two runs, of any of the five backends, on `H` and `Q H Qᴴ` with start vectors `V` and `Q V`, `Q` unitary (Backend/Basis, Backend/BasisProps, Backend/BasisInPlace, Backend/BasisMpi, Backend/BasisMgpu, Backend/BasisSign) | every routine commutes with the change of basis, so a step by step simulation gives the same scalars throughout; Householder QR is either taken along by the change of basis (`C98_seq_basis`, `C98_inplace_basis`, where also the random numbers are) or not used in the run (`C98_seq_partial`, `C98_inplace_partial`, `C98_mpi_partial`, `C98_mgpu_partial`, where both runs use the same LAPACK); with signs of Householder QR that do not follow the basis a single `QR` already depends on it (`C98_householder_refuted`, which is about `QR`, not about a whole run); random start vectors are outside the claim |
| C99 | two runs of the sequential, in-place, single-GPU, distributed CPU or multi-GPU backend, over the reals and over the complex numbers, on the same real data (Backend/Complexify, Backend/ComplexifyProps, Backend/ComplexifyExists, Backend/ComplexifyInPlace, Backend/ComplexifyMpi, Backend/ComplexifyMgpu, Backend/ComplexifySign) | every routine commutes with the embedding of the reals, so a step by step simulation gives the same scalars throughout (`sim_c`); random numbers enter only into the symmetry probe, which accepts every symmetric matrix (`C99_seq_partial`, `C99_inplace_partial`, `C99_mpi_partial`, `C99_mgpu_partial`); that LAPACK treats real matrices alike in both versions is an assumption (`Lapack.Extends`) that can be met together with the contracts (`Lapack.Ok.over`) and does not follow from them (`C99_lapack_refuted`) |

The table is the plan; MANIFEST.json has the status and the theorem names.

## Trusted base

* Lean 4.33.0: the kernel, and the elaborator for the claim that the text of a statement means what it reads.
  Mathlib only through checked proofs.
* Axioms: every theorem named in MANIFEST.json depends on a subset of `propext`, `Classical.choice`,
  `Quot.sound`. The project declares no axiom, has no `sorry`, no `native_decide`, no `bv_decide`,
  no `implemented_by`. `decide +kernel` occurs only in `example`s and in concrete refutation witnesses.
* The model: it was written by reading `/repo`; nothing relates it mechanically to the C++ text. Every
  definition cites the lines it stands for.
* The specifications of BLAS, LAPACK, MPI, the C++ standard library (`std::sort` is any function that returns a
  sorted permutation, not necessarily stable; theorems that do not mention an order assume only that it returns a permutation) and the CUDA execution model as written down in
  `Backend/Dense.lean`, `Solver/Model.lean` (`Plat`), `Dist/Schedule.lean`,
  `Dist/Spmd.lean`, `Dist/FileModel.lean`, `Gpu/Exec.lean`.
  `Backend/LapackExists.lean` proves that the LAPACK specification can be met, so that theorems
  that assume it are not empty.
* Exact arithmetic in the theorems about backends, spectra and convergence. The theorems about the solver hold for rounded
  arithmetic as far as their class arguments say (see Modelling conventions). Rounding errors are bounded
  in C73, C74, C84, C85, C87, C89, C90 and C91 only: the residuals, the matrix, the orthogonality of the vectors, the distance to different eigenvalues, the sums of values, the filter and the distance of vectors and values from eigenvectors and eigenvalues, for the sequential and the distributed CPU backend (also for the in-place CPU and the GPU backends), in the standard model of floating-point
  arithmetic (relative error of every operation; no overflow, no underflow). No theorem bounds the rounding error of Lanczos or of the dense eigensolver, and none says that a solve in rounded arithmetic converges.

## What is modelled

| code | model |
|------|-------|
| algorithm/algorithm.inc: `calc_degrees`, `locking`, `filter`, `lanczos`, `solve`, `swap_kj` | Solver/Model |
| algorithm/configuration.hpp: constructor, all setters and getters | Config/Model |
| algorithm/performance.hpp: counters, clocks, flop counts, `print`, the decorator | Perf/Model |
| ChASE-MPI/chase_mpi.hpp: `QR` selection, `Lanczos` (both), `Start`, `initVecs`, forwarding methods | Backend/Qr, Backend/Common |
| impl/chase_mpidla_blaslapack_seq.hpp | Backend/Seq, Backend/Common; over arbitrary arithmetic Rounded/Seq (`exact_eq`: with exact kernels it is Backend/Seq) |
| impl/chase_mpidla_blaslapack_seq_inplace.hpp | Backend/InPlace |
| impl/chase_mpidla_cuda_seq.hpp: all operations of a solve (`Kind.cuda`), start vectors, batched Lanczos coefficients, launches | Backend/InPlace, StartVectors, LanczosProps, Gpu/Model |
| impl/chase_mpidla.hpp + impl/chase_mpidla_blaslapack.hpp (without ScaLAPACK) | Backend/Mpi, Dist/Gather, Dist/Model (run tables); as programs of the processes: Backend/MpiSpmd, Solver/Script; over arbitrary arithmetic: Rounded/Par (`exact_gOps`: with exact kernels it is Backend/Mpi) |
| impl/chase_mpidla_mgpu.hpp under impl/chase_mpidla.hpp, with and without `CUDA_AWARE` | Backend/Mgpu; over arbitrary arithmetic and as programs of the processes: Rounded/ParGpu |
| ChASE-MPI/chase_mpi_properties.hpp: `numroc`, `create2DGrid`, three constructors, tables, file input and output | Dist/Model, Dist/FileModel |
| kernels/shift.cu: all kernels but the scalar type variants, launch wrappers | Gpu/Model |
| interface/chase_c.cpp: life cycle, decoding, file calls | Interface/Model |
| interface/chase_f.f90: names, argument lists and types | Interface/Fortran |
| acquisition and release of memory, communicators, datatypes, grids, handles and streams in all backends | Memory/Model |
| which requests for memory are checked, in all backends | Memory/Fail |
| ChASE-MPI/blas_templates.inc, blas_fortran.hpp: names, arguments, workspaces and results of all wrappers; descriptors | Blas/Model, Blas/Descinit |
| ChASE-MPI/blas_cuda_wrapper.hpp: routines called and arguments of all wrappers; workspace for cuSOLVER in impl/chase_mpidla_cuda_seq.hpp and impl/chase_mpidla_mgpu.hpp | Blas/Cuda |
| impl/chase_mpidla_cuda_seq.hpp, chase_mpidla_mgpu.hpp under chase_mpidla.hpp: for every call of a solve the kernels, library routines, copies and communications with their streams and arrays | Stream/Model |
| ChASE-MPI/chase_mpi_properties.hpp: BLACS contexts and descriptors; chase_mpidla.hpp: `hhQR` and `symOrHermMatrix` with ScaLAPACK, on arrays in memory | Scalapack/Model |
| ChASE-MPI/chase_mpi_properties.hpp: choice of the GPU | Dist/Device |
| examples (but 2_input_output): the matrix | Examples/Model, Examples/Cyclic |
| examples/2_input_output: command line to solves | Examples/Driver |
| ChASE-MPI/chase_mpi_properties.hpp: NCCL communicators; mpi_wrapper.hpp: `AllReduce` and `Bcast` with NCCL | Nccl/Model |
| ChASE-MPI/mpi_wrapper.hpp: counts of `AllReduce` and `Bcast`; ChASE-MPI/blas_templates.inc: workspace sizes of `t_heevd` | Sizes/Model |
| ChASE-MPI/blas_templates.inc, impl/chase_mpidla_cuda_seq.hpp, impl/chase_mpidla_mgpu.hpp: what is done with the `info` of `geqrf`, `gqr`, `heevd`, `stemr` | Backend/Status |
| buffers of chase_mpi_matrices.hpp and of the backends: sizes and accesses, in host and device memory | Bounds/Model, Bounds/GpuModel |

## What is not modelled

* In the backends: rounding, NaN and infinity (except in decisions, as parameters, and in Rounded/Seq, Rounded/InPlace, Rounded/Par and Rounded/ParGpu, all backends over
  arbitrary kernels). Overflow and underflow. Everywhere: `float`/`double` mixed precision.
* Statuses of BLAS, MPI, CUDA, cuBLAS and ScaLAPACK other than `info` of `geqrf`, `gqr`, `heevd`, `stemr` and `potrf`. An assertion that fails on one process is taken to end the solve on all.
* The contents of BLAS, LAPACK, cuBLAS, cuSOLVER, ScaLAPACK and MPI calls (specified, not modelled). The
  ScaLAPACK paths (`hhQR` and `symOrHermMatrix` of the distributed backend with `HAS_SCALAPACK`) are modelled in Scalapack/Model up to the mathematical meaning of the routines; in the solver models they enter by their specification only.
* In the solver models, apart from its counts (Sizes/Model) and the agreement of NCCL with MPI (Nccl/Model), the wrapper mpi_wrapper.hpp is taken to call what it names. Upper-case name mangling (`FC_GLOBAL(dstemr, SSTEMR)`, inc 1170, would not compile then). LAPACK's own use of 32-bit integers is not modelled. In the multi-GPU backend: its Lanczos step apart from what
  Backend/Mgpu takes over from Backend/Mpi. Streams appear in Stream only, where arrays are taken as a whole, communication is performed by all processes at once and lifetimes of buffers (`cudaMalloc`, `cudaFree`) are left out. Workspaces that cuBLAS allocates itself.
* The Fortran interface beyond names, argument lists and types (no bodies; array shapes, temporaries made by a
  compiler and the termination of file names are not modelled; `MPI_Fint` is taken to be `int`), of the examples all but the matrix (of 2_input_output all but the way from the command line to the solves), tests,
  build system.
* Wall-clock times: clock readings are parameters (any nondecreasing sequence).
* What happens after memory is exhausted: exceptions (`bad_alloc`) end a run of the model (Memory/Fail; elsewhere allocations succeed).

## Findings

Where a property does not hold of the code the negation is proved with a concrete witness, and the part that does hold
is proved under the suffix `_partial`.

| property | finding | theorem |
|----------|---------|---------|
| C05 | the `Swap` of the distributed backend does nothing, so after the degree sort or the final sort vectors no longer belong to their values: after a solve of diag(1, 2, 3), on any grid, the first pair is reported with residual 0 and has residual 0.9997 | `C05_noop_swap_refuted`, `Mpi.C05_mpi_swap_noop`, `Mpi.C05_mpi_refuted`, `Mgpu.C05_mgpu_refuted` |
| C06 | the final sort moves values and vectors, not residuals | `C06_residual_pairing_refuted`, `C06_seq_refuted` |
| C07 | `locking` looks at the residual of a position computed before its own exchanges | `C07_locking_refuted`, `C07_locking_refuted_unsorted` |
| C09 | the distributed symmetry check compares with an absolute tolerance | `Mpi.C09_mpi_refuted` |
| C15 | with all degrees at most 1 the filter scans past the degree array | `C15_filter_safety_refuted` |
| C18 | without guard columns (or at the end or middle of the interval) the optimised degree converts an infinity | `C18_no_guard_columns_undefined` |
| C22 | the density-of-states step indexes with -1, past the end, or uses an unset bound | `C22_*_refuted` |
| C24 | the environment variable overrides the configured QR | `C24_environment_overrides` |
| C26 | a shifted Cholesky QR that fails in its second round leaves locked vectors rescaled (in-place backends) | `C26_locked_rescaled_refuted` |
| C29 | `numroc` with block size 0 divides by zero | `Dist.C29_zero_block` |
| C30 | a process without blocks reads out of bounds in the block-cyclic constructor | `Dist.C30_empty_process_refuted` |
| C31 | block sizes wrap when (processes-1)*block > N, also with the automatic block size | `Dist.C31_wrap_refuted`, `Dist.C31_auto_refuted` |
| C36 | redistribution ignores the source process; oversized last blocks | `Dist.C36_sources_refuted`, `Dist.C36_block_refuted` |
| C37 | MPI-IO file view ignores source process and column-major grids; the C interface writes block layouts as block-cyclic ones; short files are accepted silently, and with block-cyclic distributions entries that are in the file are lost too | `Dist.C37_*_refuted`, `Dist.C37_short_file` |
| C40 | `print` twice doubles the times; before the first solve it reads an unset member | `Perf.C40_print_refuted`, `Perf.C40_print_before_solve` |
| C41 | the in-place backend leaves the eigenvectors in its own buffer after an odd number of rounds | `C41_inplace_refuted` |
| C42 | buffers of 2*nev columns with nex > nev; more Lanczos runs than columns; gather overrun on processes with fewer rows than others; CUDA-aware multi-GPU: `d_ritzVc_` is sized by the first solve of the object, a later solve that needs more writes behind its end | `Bounds.C42_*_refuted`, `Bounds.C42_mpi_overrun`, `Bounds.C42_mgpu_overrun` |
| C43 | finalising twice, solving before or after, initialising twice, file access after finalising | `Iface.C43_*` |
| C45 | diagonal keeps imaginary parts; nothing happens without ScaLAPACK | `C45_symmetrise_refuted`, `Mpi.C45_mpi_refuted` |
| C46 | residual kernel ignores the second leading dimension; the trace is added to memory that nobody clears | `Gpu.C46_residual_ldb_refuted`, `Gpu.C46_trace_refuted` |
| C47 | copy kernel fails for multiples of the super block, upper and lower interchanged; 32-bit overflow from order 46341 | `Gpu.C47_*_refuted` |
| C48 | batched CUDA Lanczos uses the coefficients of the first run for all runs | `C48_cuda_refuted` |
| C52 | the copy of the Lanczos basis overwrites the first columns | `C52_basis_refuted`, `C52_ritz_vectors_refuted` |
| C53 | the computed upper bound can lie below the spectrum | `C53_bound_below_spectrum` |
| C54 | the CUDA backend and the CUDA-aware multi-GPU backend ignore the user's start vectors (multi-GPU: for the setup of C60) | `C54_cuda_ignores_user_vectors`, `Mgpu.C54_mgpu_aware_refuted` |
| C63 | in approximation mode a start value of the caller that is not below the bound of the Lanczos step (e.g. values of an earlier, larger matrix) gives an interval of length zero in the first round: `filter` divides by zero (the code prints "ASSERTION FAILURE lowerb > upperb" when it is above, sets `lowerb = upperb` and goes on) | `C63_refuted_empty_interval` (every backend) |
| C63 | the lower end is renewed only when no active residual exceeds 1/2, the scaling point after every lock: the scaling point can lie inside the damped interval | `C63_refuted_scaling_point` (on a scripted backend) |
| C65 | a restart from the solution makes one round, an odd number, after which the in-place CPU backend leaves the result in an internal buffer: the caller's array, which held a basis of the eigenvectors, is filled with zeros | `InPlace.C65_inplace_partial` (second part) |
| C67 | the Lanczos runs divide by zero when a start column is an exact eigenvector and there are two or more steps (in approximation mode the first column is the caller's, so exactly when the start vectors are the solution), and from every start when the matrix has fewer distinct eigenvalues than Lanczos steps, min(nev + nex, N / 2, lanczosIter), for instance a multiple of the identity.  In the code the quotients are infinite or NaN (in floating point, rounding usually makes the divisor tiny instead); in the model of the solve a quotient by zero is 0, so theorems about a solve say what the code does only for starts for which C67 excludes the division | `C67_eigenvector_refuted`, `C67_few_eigenvalues_refuted` |
| C68 | the test for convergence is `resid > tol`, which is false for NaN (algorithm.inc 90): when a backend reports residuals that are not numbers, for instance because the matrix contains a NaN or the Lanczos step divided by zero (C67), the solve stops after one round and counts all wanted pairs as converged; no error is signalled | `C68_refuted` |
| C69 | `pcchase_init` and `pcchase_init_blockcyclic` declare the eigenvalues as `REAL(c_double)`, the C functions take `float*`: a Fortran program that follows the declaration reads two values as one and finds the second half of its array unchanged | `Fortran.C69_values_refuted` |
| C69 | `pcchase_wrtHam_blockcyclic`, `pzchase_wrtHam_blockcyclic`, `pcchase_readHam_blockcyclic` and `pzchase_readHam_blockcyclic` declare the complex matrix as `REAL(c_float_complex)` and `REAL(c_double_complex)`, which are real types: a complex array is not an argument of the declared type | `Fortran.C69_file_refuted` |
| C70 | the documentation of all init functions asks for `nev` elements of `ritzv`; every solve of at least one round with `nex > 0` writes `nev + nex` (all examples allocate `nev + nex`) | `Bounds.C70_seq_refuted`, `Bounds.C70_inplace_refuted`, `Bounds.C70_mpi_refuted`, `Bounds.C70_cuda_refuted`, `Bounds.C70_mgpu_refuted` |
| C71 | counts are computed as `std::size_t` and passed as `int`: when a process has 2^31 or more elements of a block of vectors (10^6 rows and 2148 columns, say), a reduction in every Rayleigh-Ritz step fails or sums only a part; likewise files whose local part has 2^31 elements or more (order 46341 on one process) are transferred in part, although the local count is an `MPI_Count` | `Sizes.C71_refuted`, `Sizes.C71_files` |
| C72 | `t_heevd` takes the workspace size from a floating-point number: with a LAPACK that reports its documented minimum rounded to nearest (as before `SROUNDUP_LWORK` was introduced), for every block of 2895 to 5790 columns in real single precision and for the multiples of four from 2896 to 5788 in complex single precision the workspace is one element too short, LAPACK returns an error and nothing is computed; the callers do not look at the result. From 32767 columns on no `int` is large enough | `Sizes.C72_single_refuted`, `Sizes.C72_single_complex_refuted`, `Sizes.C72_large_refuted` |
| C74 | in every round the filter subtracts the centre of the interval from the diagonal and adds it again; in floating point this does not restore the entries. In double precision a diagonal entry `2^-60` is `0` after a solve that converges in one round. The drift is bounded, a diagonal entry `h` moves by at most `((1+u)^(2n) - 1) (\|h\| + C)` in `n` rounds with shifts of at most `C` | `Rounded.C74_refuted`, `Rounded.C74_drift_partial`, `Rounded.InPlace.C74_inplace_refuted`, `Rounded.Par.C74_mpi_refuted` |
| C75 | `mLanczos` makes three or four matrices with `new` and never deletes them: every solve loses at least `3 N` elements times the number of Lanczos vectors (`3 m + n` on a process of the distributed version, on host and device with GPUs). The in-place `Swap` loses a column of `N` elements per exchange; Householder QR with ScaLAPACK loses two descriptors per call; the shifted Cholesky QR on one GPU a scalar; with displayed condition numbers `t_gesvd` loses `rwork`, except for complex double precision | `Memory.C75_memory_grows_refuted`, `Memory.C75_seq_partial`, `Memory.C75_inplace_partial`, `Memory.calls_runs` |
| C76 | every distributed solver object leaves six communicators and the derived datatypes on every process, with ScaLAPACK also two BLACS grids; the GPU backends a cuBLAS handle each, a stream (one GPU) and two device vectors (several GPUs) | `Memory.C76_mpi_refuted`, `Memory.C76_gpu_refuted`, `Memory.C76_destroyed_partial` |
| C77 | nothing is broadcast to make the processes agree: each compares the residuals it got from its own row communicator with the tolerance. MPI does not promise that two communicators add in the same order; if two rows of the grid do not, their residuals may differ in the last bit, so that one row returns while the other begins another round and waits for ever. In double precision a 2 x 3 grid and a symmetric matrix of order four suffice | `Rounded.Par.C77_refuted`, `Rounded.Par.C77_no_deadlock_partial` |
| C78 | the documented estimate is exceeded (1) by repeated solves, because of C75, and (2) by a single solve with Householder QR on a grid with one column, if the local dimension `l` is small (`2 l² + 5 l + 2 nb < (l + block) block`, e.g. `N = 1000`, `block = 100`, a grid of 20 by 1): the estimate has two blocks of `N` rows, the code one, but it has twice as many local blocks as the estimate. It suffices if `m + n + block ≤ N` and the temporaries fit into the quadratic terms | `Memory.C78_grows_refuted`, `Memory.C78_householder_refuted`, `Memory.C78_estimate_partial` |
| C79 | `t_gesvd` for `float` and `double` passes 15 arguments to a routine with 14: LAPACK stores its status in `rwork`, and the `assert (info == 0)` after both calls reads a variable that nobody has assigned. Reached with `CHASE_DISPLAY_BOUNDS` set | `Blas.C79_gesvd_refuted` |
| C79 | `t_syherk` for complex types passes complex factors where `cherk` and `zherk` read real ones: harmless, they read the real part, and the library only passes 1 and 0 | `Blas.C79_herk_partial` |
| C79 | `t_pgqr` for `float` passes the number of columns as the number of reflectors (equal in the only call); `dlange` is declared to return `float`, so `t_lange` for `double` would return 4 of the 8 bytes (not called) | `Blas.C79_pgqr_refuted`, `Blas.C79_lange_refuted` |
| C80 | CUDA-aware MPI without NCCL: `apply`, `asynCxHGatherC`, `RR`, `Resd` and the Cholesky QRs hand a product to cuBLAS and call MPI on its result at once; nothing waits for the device (a `cudaStreamSynchronize` and a `cudaDeviceSynchronize` are commented out: chase_mpidla_mgpu.hpp 455, mpi_wrapper.hpp 153). If the MPI library does not wait itself, it reduces old contents | `Stream.C80_mgpu_mpi_refuted` |
| C80 | the single-GPU backend relies on the legacy default stream: compiled with a default stream per thread (not the default) the residual kernel may run before the product it needs | `Stream.C80_per_thread_refuted` |
| C81 | with CUDA-aware communication, after a successful Cholesky QR, `lockVectorCopyAndOrthoConcatswap` copies between two device arrays with `cudaMemcpyDeviceToHost`: undefined according to the CUDA documentation | `Stream.C81_lock_copy_refuted` |
| C82 | block constructors with a last block longer than the others (C31 allows it): ScaLAPACK looks for the surplus rows on the first process row | `Scalapack.C82_vectors_block_refuted` |
| C82 | the BLACS contexts are made from the system context with ranks in the communicator of the caller; on a process whose rank in `MPI_COMM_WORLD` is different the descriptor points to another process | `Scalapack.C82_vectors_communicator_refuted` |
| C82, C45 | `symOrHermMatrix` makes its descriptor with first process row and column 0 whatever `irsrc`, `icsrc` are: wrong processes, and the mirrored triangle is lost | `Scalapack.C82_matrix_source_refuted`, `Scalapack.C82_symmetrise_source_refuted` |
| C82, C45 | `symOrHermMatrix` reads the transposed matrix with leading dimension `m` although it was written with `ldh`, and `tmp` is too small for large `ldh`: with padded local arrays the result is wrong, with large padding ScaLAPACK writes beyond `tmp` | `Scalapack.C82_symmetrise_padding_refuted`, `Scalapack.C82_tmp_overflow_refuted` |
| C83 | the reduction wrapper would multiply real and imaginary parts separately if asked for the product of complex numbers (the library only asks for sums) | `Nccl.C83_product_refuted` |
| C93 | with fewer GPUs than processes on a node the constructors print that the program will terminate and go on, all processes of the node on the same GPU; only process 0 prints, and only about its own node | `Device.C93_shared_refuted`, `Device.C93_error_printed`, `Device.C93_silent_refuted` |
| C94 | 0_hello_world and 3_installation set the diagonal of the whole matrix in the local array: on more than one process they write behind it; 4_f_serial assigns `h(N+1, N)`; 4_c_serial, 4_c_dist and 4_f_dist leave all entries but those near the diagonal as `malloc`/`allocate` returned them | `Examples.C94_hello_refuted`, `Examples.C94_hello_cyclic_refuted`, `Examples.C94_f_serial_refuted`, `Examples.C94_c_serial_refuted`, `Examples.C94_c_dist_refuted`, `Examples.C94_f_dist_refuted` |
| C95 | driver 2_input_output: `--mode` is checked but never used; with the required options only it ends with -1 (default mode `A` needs `--path_eigp`; in block-cyclic builds the default `C` of `--major` is stored as mode); `--major` never reaches the library, `--icsrc` neither (`int icsrc = conf.irsrc`); a file of a wrong size and single precision end with status 0; `--isMatGen` in block-cyclic builds solves an unassigned array | `Examples.Driver.C95_mode_refuted`, `C95_defaults_refuted`, `C95_major_refuted`, `C95_status_refuted`, `C95_generated_refuted`; when the status is right: `C95_status_partial` |
| C96 | `t_lacpy_gpu` launches a grid without blocks if the number of rows or columns is a positive multiple of 65535*64 = 4194240 (the last super block has `m % super_NB` rows) | `Gpu.C96_copy_refuted` |
| C97 | the matrices of the GPU backends are allocated with `cudaMalloc` and `cudaMallocHost` whose status is not looked at (chase_mpi_matrices.hpp 39, 89): if a device has room for everything but the matrix, the constructor returns without it; without page-locked memory `std::fill_n` writes through a pointer that was never set; the same in `mLanczos`, and for `v0_`, `v1_`, `w_`, `d_sum` (one GPU), `d_off_m_`, `d_off_n_`, `d_sum_` (several) | `Memory.C97_gpu_refuted`, `Memory.C97_pinned_refuted`, `Memory.C97_lanczos_refuted` |
| C54, C62 | after an odd number of rounds the in-place backend starts the next solve in approximation mode from its internal buffer, not from the user's array | `InPlace.C54_inplace_used_refuted` |
| C59 | random kernels: an `int` overflows from 2^31 - 8191 values on | `Gpu.C59_overflow_refuted` |
| C60 | staged copies with ScaLAPACK: Householder QR does not set `isHHqr`, so that, unless it happens to be true (the constructor leaves it uninitialised), Rayleigh-Ritz uses what the device held before QR | `Mgpu.C60_staged_scalapack_refuted` |
| C61 | CUDA-aware without ScaLAPACK: Householder QR works on a copy in host memory and nothing is copied back to the device | `Mgpu.C61_aware_hhQR_refuted` |
| C61 | after a Cholesky QR the CUDA-aware variant copies between device addresses with the direction device to host, for which CUDA defines no behaviour; the theorem says what follows if nothing is copied | `Mgpu.C61_aware_copy_refuted` |
| C86 | callers ignore the `info` returned by the wrappers of LAPACK, which only compare it in `assert`: in a build with `NDEBUG` a failure of the eigensolver can end as converged pairs | `C86_seq_ndebug_refuted`, `Mpi.C86_mpi_ndebug_refuted` |
| C86 | the GPU backends never read the `info` of the eigensolver on the device (cuda_seq 465, mgpu 743): the same in every build | `C86_cuda_refuted`, `Mgpu.C86_mgpu_refuted` |
| C87 | the choice between the Cholesky QR variants looks at Ritz values and degrees, not at the block, and nothing looks at the norms of the vectors afterwards: in approximation mode, with start vectors that are multiples of each other, `cholQR1` may not notice the dependence in floating-point arithmetic, a vector becomes zero, and the solve locks the pair (value 0, vector 0, residual 0) although 0 is not an eigenvalue | `Rounded.Two.C87_dependent_refuted` |
| C88 | the first QR of a solve gets the number 1 whatever the random start vectors are: too small unless all of them have the same length and are orthogonal | `C88_refuted_start` |
| C88 | in approximation mode the start values need not be in order, and the estimate only looks at the first: with the largest first it is 1 although the filter has scaled orthogonal directions differently | `C88_refuted_order` |

Seen while reading, not formalised: complex normal kernels draw one value for real and imaginary part.

## Testing the theorems

`seeded/LOG.jsonl` records the deliberate bugs put into a scratch copy of the model, one per line, with the theorems that
stopped proving.

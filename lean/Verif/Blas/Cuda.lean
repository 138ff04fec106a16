/-
Model of the wrappers of cuBLAS and cuSOLVER (ChASE-MPI/blas_cuda_wrapper.hpp, called `cw` below), of the workspace the
GPU backends allocate for cuSOLVER, and of the calls that use it (ChASE-MPI/impl/chase_mpidla_cuda_seq.hpp, `seq`;
ChASE-MPI/impl/chase_mpidla_mgpu.hpp, `mgpu`).
-/
import Verif.Blas.Model

namespace Verif
namespace Blas
namespace Cuda
open Fortran (Kind Mem load store)

/-- What an argument holds: a parameter that BLAS and LAPACK have too, the handle of the library, or the place where a
result (`result` of `nrm2` and `dot`, `lwork` of a query) is to be stored.  `devInfo` is `Role.info`. -/
inductive Arg where
  | of (r : Role)
  | handle
  | result
  deriving DecidableEq, Repr

/-- How an argument is passed: the handle, a constant of an enumeration, an integer by value, or a pointer to elements
of a type. -/
inductive Pass where
  | handle
  | enum
  | int
  | ptr (k : Kind)
  deriving DecidableEq, Repr

/-- The wrappers; `herk` is `cublasTsyherk`, `…Size` the query of the size of the workspace. -/
inductive Op where
  | gemv | gemm | geqrfSize | geqrf | gqrSize | gqr | heevdSize | heevd | potrfSize | potrf | herk | trsm | axpy | nrm2
  | dot | scal
  deriving DecidableEq, Repr

/-- The routines without their letter: `dot` is `cublas?dot`, `dotc` is `cublas?dotc`; `nrm2` is `cublasSnrm2`,
`cublasDnrm2`, `cublasScnrm2`, `cublasDznrm2`. -/
inductive Base where
  | gemv | gemm | geqrfSize | geqrf | orgqrSize | orgqr | ungqrSize | ungqr | syevdSize | syevd | heevdSize | heevd
  | potrfSize | potrf | syrk | herk | trsm | axpy | nrm2 | dot | dotu | dotc | scal
  deriving DecidableEq, Repr

/-- The routine called: `cublasTgemv` cw 16-62, `cublasTgemm` 64-114, `cusolverDnTgeqrf_bufferSize` 116-148,
`cusolverDnTgeqrf` 150-188, `cusolverDnTgqr_bufferSize` 190-227, `cusolverDnTgqr` 229-268,
`cusolverDnTheevd_bufferSize` 270-311, `cusolverDnTheevd` 313-352, `cusolverDnTpotrf_bufferSize` 354-388,
`cusolverDnTpotrf` 390-430, `cublasTsyherk` 433-473, `cublasTtrsm` 476-524, `cublasTaxpy` 527-558, `cublasTnrm2`
560-586, `cublasTdot` 588-618, `cublasTscal` 620-647. -/
def routine (op : Op) (t : Ty) : Base × Ty :=
  (match op with
    | .gemv => .gemv
    | .gemm => .gemm
    | .geqrfSize => .geqrfSize
    | .geqrf => .geqrf
    | .gqrSize => if t.isReal then .orgqrSize else .ungqrSize
    | .gqr => if t.isReal then .orgqr else .ungqr
    | .heevdSize => if t.isReal then .syevdSize else .heevdSize
    | .heevd => if t.isReal then .syevd else .heevd
    | .potrfSize => .potrfSize
    | .potrf => .potrf
    | .herk => if t.isReal then .syrk else .herk
    | .trsm => .trsm
    | .axpy => .axpy
    | .nrm2 => .nrm2
    | .dot => if t.isReal then .dot else .dotc
    | .scal => .scal, t)

/-- The element type of the pointers passed for matrices and vectors: for complex types they are reinterpreted as
pointers to `cuComplex` or `cuDoubleComplex`, which hold the same two numbers in the same order. -/
def cast (t : Ty) : Kind := t.elt

/-- The arguments passed, in order.  Lines as for `routine`. -/
def passed (op : Op) (t : Ty) : List (Arg × Pass) :=
  let e : Pass := .ptr (cast t)
  let b : Pass := .ptr t.base
  match op with
  | .gemv => [(.handle, .handle), (.of .transa, .enum), (.of .m, .int), (.of .n, .int), (.of .alpha, e), (.of .a, e),
      (.of .lda, .int), (.of .x, e), (.of .incx, .int), (.of .beta, e), (.of .y, e), (.of .incy, .int)]
  | .gemm => [(.handle, .handle), (.of .transa, .enum), (.of .transb, .enum), (.of .m, .int), (.of .n, .int),
      (.of .k, .int), (.of .alpha, e), (.of .a, e), (.of .lda, .int), (.of .b, e), (.of .ldb, .int), (.of .beta, e),
      (.of .c, e), (.of .ldc, .int)]
  | .geqrfSize => [(.handle, .handle), (.of .m, .int), (.of .n, .int), (.of .a, e), (.of .lda, .int),
      (.of .lwork, .ptr .int)]
  | .geqrf => [(.handle, .handle), (.of .m, .int), (.of .n, .int), (.of .a, e), (.of .lda, .int), (.of .tau, e),
      (.of .work, e), (.of .lwork, .int), (.of .info, .ptr .int)]
  | .gqrSize => [(.handle, .handle), (.of .m, .int), (.of .n, .int), (.of .k, .int), (.of .a, e), (.of .lda, .int),
      (.of .tau, e), (.of .lwork, .ptr .int)]
  | .gqr => [(.handle, .handle), (.of .m, .int), (.of .n, .int), (.of .k, .int), (.of .a, e), (.of .lda, .int),
      (.of .tau, e), (.of .work, e), (.of .lwork, .int), (.of .info, .ptr .int)]
  | .heevdSize => [(.handle, .handle), (.of .jobz, .enum), (.of .uplo, .enum), (.of .n, .int), (.of .a, e),
      (.of .lda, .int), (.of .w, b), (.of .lwork, .ptr .int)]
  | .heevd => [(.handle, .handle), (.of .jobz, .enum), (.of .uplo, .enum), (.of .n, .int), (.of .a, e),
      (.of .lda, .int), (.of .w, b), (.of .work, e), (.of .lwork, .int), (.of .info, .ptr .int)]
  | .potrfSize => [(.handle, .handle), (.of .uplo, .enum), (.of .n, .int), (.of .a, e), (.of .lda, .int),
      (.of .lwork, .ptr .int)]
  | .potrf => [(.handle, .handle), (.of .uplo, .enum), (.of .n, .int), (.of .a, e), (.of .lda, .int), (.of .work, e),
      (.of .lwork, .int), (.of .info, .ptr .int)]
  | .herk => [(.handle, .handle), (.of .uplo, .enum), (.of .trans, .enum), (.of .n, .int), (.of .k, .int),
      (.of .alpha, b), (.of .a, e), (.of .lda, .int), (.of .beta, b), (.of .c, e), (.of .ldc, .int)]
  | .trsm => [(.handle, .handle), (.of .side, .enum), (.of .uplo, .enum), (.of .trans, .enum), (.of .diag, .enum),
      (.of .m, .int), (.of .n, .int), (.of .alpha, e), (.of .a, e), (.of .lda, .int), (.of .b, e), (.of .ldb, .int)]
  | .axpy => [(.handle, .handle), (.of .n, .int), (.of .alpha, e), (.of .x, e), (.of .incx, .int), (.of .y, e),
      (.of .incy, .int)]
  | .nrm2 => [(.handle, .handle), (.of .n, .int), (.of .x, e), (.of .incx, .int), (.result, b)]
  | .dot => [(.handle, .handle), (.of .n, .int), (.of .x, e), (.of .incx, .int), (.of .y, e), (.of .incy, .int),
      (.result, e)]
  | .scal => [(.handle, .handle), (.of .n, .int), (.of .alpha, e), (.of .x, e), (.of .incx, .int)]

/-- A call of a cuSOLVER routine that needs a workspace, with the sizes it is called with. -/
inductive Call where
  | geqrf (m n lda : ℕ)
  | gqr (m n k lda : ℕ)
  | heevd (n lda : ℕ)
  | potrf (n lda : ℕ)
  deriving DecidableEq, Repr

/-- `lwork_` of the sequential GPU backend: seq 206-237, with `max_block_ = nev + nex` (seq 169).  `query` is what the
library answers to `…_bufferSize`. -/
def seqWork (query : Call → ℕ) (N nev nex : ℕ) : ℕ :=
  let maxBlock := nev + nex
  let geqrf := query (.geqrf N maxBlock N)
  let orgqr := query (.gqr N maxBlock maxBlock N)
  let lwork := if geqrf > orgqr then geqrf else orgqr
  let heevd := query (.heevd maxBlock maxBlock)
  let lwork := if heevd > lwork then heevd else lwork
  let potrf := query (.potrf (nev + nex) (nev + nex))
  if potrf > lwork then potrf else lwork

/-- `lwork_` of the multi-GPU backend: mgpu 322-343, starting from 0 (mgpu 1026). -/
def mgpuWork (query : Call → ℕ) (nev nex : ℕ) : ℕ :=
  let lwork := 0
  let heevd := query (.heevd (nev + nex) (nev + nex))
  let lwork := if heevd > lwork then heevd else lwork
  let potrf := query (.potrf (nev + nex) (nev + nex))
  if potrf > lwork then potrf else lwork

/-- Elements of `d_work_`: `cudaMalloc((void**)&d_work_, sizeof(T) * lwork_)` (seq 238, mgpu 344), in bytes. -/
def allocBytes (t : Ty) (lwork : ℕ) : ℕ := t.elt.size * lwork

/-- The calls of an iteration of the sequential GPU backend that use `d_work_`: `hhQR` (seq 521-535; `nevex` is
`nev_ + nex_`), `cholQR1`, `cholQR2`, `shiftedcholQR2` (seq 565, 614, 636, 685, 707, 729) and `RR` with `block` columns
(seq 463-465). -/
def seqCalls (N nev nex block : ℕ) : List Call :=
  let nevex := nev + nex
  [.geqrf N nevex N, .gqr N nevex nevex N] ++ List.replicate 6 (.potrf (nev + nex) (nev + nex)) ++
    [.heevd block (nev + nex)]

/-- The same for the multi-GPU backend: `potrf` (mgpu 664-666) and `heevd` (mgpu 740-743). -/
def mgpuCalls (nev nex block : ℕ) : List Call :=
  [.potrf (nev + nex) (nev + nex), .heevd block (nev + nex)]

end Cuda
end Blas
end Verif

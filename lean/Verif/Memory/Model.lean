/-
What the backends allocate and release: construction, the calls the solver makes, destruction.

Cited files: seq = ChASE-MPI/impl/chase_mpidla_blaslapack_seq.hpp, inplace = .._seq_inplace.hpp,
cuda = chase_mpidla_cuda_seq.hpp, dla = chase_mpidla.hpp, host = chase_mpidla_blaslapack.hpp,
mgpu = chase_mpidla_mgpu.hpp, matrices = ChASE-MPI/chase_mpi_matrices.hpp, properties =
ChASE-MPI/chase_mpi_properties.hpp, templates = ChASE-MPI/blas_templates.inc, chase_mpi = ChASE-MPI/chase_mpi.hpp.

Simplifications: a block is counted in elements, whatever their type; what the standard library, LAPACK, MPI or CUDA
allocate internally is not modelled, nor are locals of type `std::vector<MPI_Request>`, the tables of lengths and
offsets of the distributed backend (members of type `std::vector`) and the local vectors of `solve` and `locking`
(algorithm.inc 78, 378-379), which are all released automatically; workspace queries answer with arbitrary numbers
(`Env.work`); allocations succeed.
-/
import Verif.Solver.Trace

namespace Verif.Memory

/-- Something that is acquired and must be given back. -/
inductive Res where
  /-- host memory: `new`, `std::vector`, `std::allocator`, `cudaMallocHost` -/
  | host (elems : ℕ)
  /-- device memory: `cudaMalloc` -/
  | device (elems : ℕ)
  /-- a communicator of MPI or NCCL -/
  | comm
  /-- a derived datatype of MPI -/
  | mpiType
  /-- a process grid of BLACS -/
  | context
  /-- a handle of cuBLAS or cuSOLVER -/
  | handle
  /-- a CUDA stream -/
  | stream
  deriving DecidableEq

/-- Everything that has been acquired and not given back, under distinct numbers; and what was held after each
acquisition so far. -/
structure Heap where
  next : ℕ
  live : List (ℕ × Res)
  past : List (List (ℕ × Res))

/-- A program that acquires and releases; `none` if it releases something that it does not hold (twice, say). -/
abbrev Prog := StateT Heap Option

/-- Acquires a resource. -/
def new (r : Res) : Prog (ℕ × Res) := fun h =>
  some ((h.next, r), ⟨h.next + 1, (h.next, r) :: h.live, ((h.next, r) :: h.live) :: h.past⟩)

/-- Releases a resource. -/
def delete (a : ℕ × Res) : Prog Unit := fun h =>
  if a ∈ h.live then some ((), ⟨h.next, h.live.erase a, h.past⟩) else none

/-- Acquires several resources. -/
def newAll : List Res → Prog (List (ℕ × Res))
  | [] => pure []
  | r :: rs => do
    let a ← new r
    let as ← newAll rs
    pure (a :: as)

/-- Releases several resources. -/
def deleteAll : List (ℕ × Res) → Prog Unit
  | [] => pure ()
  | a :: as => do
    delete a
    deleteAll as

/-- Objects of automatic storage duration (`std::vector`, `std::unique_ptr`): released when the block is left. -/
def locals {α : Type} (rs : List Res) (p : Prog α) : Prog α := do
  let as ← newAll rs
  let x ← p
  deleteAll as.reverse
  pure x

/-- `Matrix(mode, m, n)`: matrices 128-152. -/
def matrix (mode elems : ℕ) : List Res :=
  match mode with
  | 0 => [.host elems]
  | 1 => [.host elems, .device elems]
  | _ => [.device elems]

/-- `Matrix(mode, m, n, ptr, ld)`, whose host memory is the caller's: matrices 154-179. -/
def matrixOf (mode elems : ℕ) : List Res :=
  match mode with
  | 0 => []
  | _ => [.device elems]

/-- The backends.  The distributed ones can use ScaLAPACK; the multi-GPU one can be compiled for CUDA-aware MPI. -/
inductive Backend where
  | seq | inplace | cuda
  | mpi (scalapack : Bool)
  | mgpu (aware scalapack : Bool)
  deriving DecidableEq

/-- Sizes of the problem and of the part of it that the process holds. -/
structure Env where
  N : ℕ
  nev : ℕ
  nex : ℕ
  /-- rows and columns of the local block, `m_`, `n_` -/
  m : ℕ
  n : ℕ
  /-- process rows and columns, `dims_` -/
  rows : ℕ
  cols : ℕ
  /-- `isSameDist_`, and the longest run otherwise (dla 346-353) -/
  sameDist : Bool
  maxRun : ℕ
  /-- number of datatypes that the constructor of `ChaseMpiDLA` makes for the exchange of the two forms (dla 242-303) -/
  types : ℕ
  /-- number of diagonal entries in the local block (mgpu 347-365) -/
  diag : ℕ
  /-- sizes of the workspaces that LAPACK and cuSOLVER ask for -/
  work : ℕ
  /-- whether condition numbers are printed (environment variable `CHASE_DISPLAY_BOUNDS`, chase_mpi 383-396) -/
  display : Bool
  /-- whether the scalar type is `std::complex<double>` -/
  zdouble : Bool

/-- `nev_ + nex_`. -/
def Env.nevex (E : Env) : ℕ := E.nev + E.nex

/-- What the object holds: the members that its destructor releases, and buffers that are allocated on first use
(`V___` of dla 1099-1103; `d_ritzVc_` of mgpu 803-806). -/
structure Obj where
  owned : List (ℕ × Res)
  full : Option (List (ℕ × Res))
  ritzVc : Option (ℕ × Res)

/-- `matrices_` of the backends for one process: matrices 333-357 (`H`, `C`, `B`, `A`, `Ritzv`, `Resid`). -/
def matricesSeq (E : Env) (gpu : Bool) : List Res :=
  let one := if gpu then 1 else 0
  let only := if gpu then 2 else 0
  matrixOf one (E.N * E.N) ++ matrixOf one (E.N * E.nevex) ++ matrix only (E.N * E.nevex) ++
    matrix only (E.nevex * E.nevex) ++ matrixOf one E.nevex ++ matrix one E.nevex

/-- `matrices_` of the distributed backends: matrices 389-421. -/
def matricesMpi (E : Env) (mode : ℕ) : List Res :=
  let gpu := if mode = 0 then 0 else 1
  matrixOf gpu (E.m * E.n) ++ matrixOf mode (E.m * E.nevex) ++ matrix mode (E.m * E.nevex) ++
    matrix mode (E.n * E.nevex) ++ matrix mode (E.n * E.nevex) ++ matrix mode (E.nevex * E.nevex) ++
    matrixOf gpu E.nevex ++ matrix gpu E.nevex ++ matrix gpu E.m

/-- The mode of the matrices of the multi-GPU backend: mgpu 260-267. -/
def mgpuMode (aware : Bool) : ℕ := if aware then 2 else 1

/-- Acquired by `ChaseMpiProperties` and `ChaseMpiDLA` and released by their destructors: `buff__` (dla 346-353), if
the two distributions differ.  Both destructors are empty or not declared; members are released (dla 363,
1753-1779). -/
def dlaOwned (E : Env) (aware : Bool) : List Res :=
  if E.sameDist then [] else matrix (if aware then 2 else 0) (E.maxRun * E.nevex)

/-- Acquired by `ChaseMpiProperties` and `ChaseMpiDLA` and never released: the communicators `shm_comm_` (properties
247, 575, 858), `cartComm`, `row_comm_`, `col_comm_` (106, 135, 150) and the two duplicates (513-514, 805-806,
1077-1078; with NCCL two communicators of NCCL); with ScaLAPACK two process grids (459, 472-476 and the same in the
other constructors) and the array of `t_descinit` (464; templates 1471-1492); the datatypes (dla 118-134: one for
each process row and column; 242-303). -/
def dlaLost (E : Env) (scalapack : Bool) : List Res :=
  List.replicate 6 .comm ++ (if scalapack then [.context, .host 9, .context] else []) ++
    List.replicate (E.rows + E.cols + E.types) .mpiType

/-- Members that the destructor releases. -/
def Backend.owned (E : Env) : Backend → List Res
  /- seq 34-47, 54-56: `maxBlock_` is twice the sixth argument, for which chase_mpi 116 passes `nev_` -/
  | .seq => matricesSeq E false ++ matrix 0 (E.N * (E.nev + E.nev)) ++ matrix 0 (E.N * (E.nev + E.nev))
  /- inplace 36-53 -/
  | .inplace => matricesSeq E false
  /- cuda 166-242 and 245-272: `d_v1_`, `d_w_`, `v0_`, `v1_`, `w_`, `cublasH_`, `cusolverH_`, `states_`, `devInfo_`,
  `d_return_`, `d_work_`, `d_v0`, `d_v1`, `d_w` -/
  | .cuda => matricesSeq E true ++ [.device E.N, .device E.N, .host E.N, .host E.N, .host E.N, .handle, .handle,
      .device (256 * 32), .device 1, .device E.nevex, .device E.work, .device E.N, .device E.N, .device E.N]
  /- host 36-72 -/
  | .mpi _ => matricesMpi E 0 ++ dlaOwned E false
  /- mgpu 312-375 and 383-400: `states_`, `cublasH_`, `cusolverH_`, `devInfo_`, `d_work_`, `d_off_m_`, `d_off_n_`,
  `stream1_`, `stream2_`, `d_sum_` -/
  | .mgpu aware _ => matricesMpi E (mgpuMode aware) ++ [.device (256 * 32), .handle, .handle, .device 1,
      .device E.work, .device E.diag, .device E.diag, .stream, .stream, .device 1] ++ dlaOwned E aware

/-- Acquired by the constructor and not released by the destructor. -/
def Backend.lost (E : Env) : Backend → List Res
  | .seq | .inplace => []
  /- `stream_` and `cublasH2_` (cuda 192, 196) are missing in the destructor (245-272) -/
  | .cuda => [.stream, .handle]
  | .mpi scalapack => dlaLost E scalapack
  /- `d_v_`, `d_w_` and `cublasH2_` (mgpu 314, 315, 318) are missing in the destructor (383-400) -/
  | .mgpu _ scalapack => [.device E.m, .device E.n, .handle] ++ dlaLost E scalapack

/-- The constructors of `ChaseMpiProperties`, of the backend and of `ChaseMpi` (chase_mpi 111-122, 188-207).
(Within a constructor the order of the acquisitions is not kept.) -/
def construct (E : Env) (b : Backend) : Prog Obj := do
  let _ ← newAll (b.lost E)
  let owned ← newAll (b.owned E)
  pure { owned := owned, full := none, ritzVc := none }

/-- The destructor of `ChaseMpi` (chase_mpi 231): its members `dla_` and `properties_` are destroyed. -/
def destruct (o : Obj) : Prog Unit := do
  deleteAll (o.ritzVc.toList)
  deleteAll ((o.full.getD []).reverse)
  deleteAll o.owned.reverse

/-- `mLanczos` for `w` vectors: the matrices `v_0`, `v_1`, `v_2` (and `v_w`) are made with `new`; the members that
point to them are overwritten by the next call.  seq 475-477, inplace 450-452, cuda 816-818, dla 1390-1398. -/
def lanczosMats (E : Env) (w : ℕ) : Backend → List Res
  | .seq | .inplace => matrix 0 (E.N * w) ++ matrix 0 (E.N * w) ++ matrix 0 (E.N * w)
  | .cuda => matrix 2 (E.N * w) ++ matrix 2 (E.N * w) ++ matrix 2 (E.N * w)
  | .mpi _ => matrix 0 (E.m * w) ++ matrix 0 (E.m * w) ++ matrix 0 (E.m * w) ++ matrix 0 (E.n * w)
  | .mgpu _ _ => matrix 1 (E.m * w) ++ matrix 1 (E.m * w) ++ matrix 1 (E.m * w) ++ matrix 1 (E.n * w)

/-- `mLanczos` of `w` vectors: the matrices, and the local vectors `real_alpha`, `alpha`, `beta`. -/
def mLanczos (E : Env) (b : Backend) (w : ℕ) : Prog Unit :=
  locals [.host w, .host w, .host w] do
    let _ ← newAll (lanczosMats E w b)
    pure ()

/-- `t_stemr`: templates 1148-1240 (two workspaces). -/
def stemr (E : Env) : Prog Unit := locals [.host E.work, .host E.work] (pure ())

/-- `Lanczos(M, upperb)`: chase_mpi 481-501 (`d`, `e`, `real_beta`, `isuppz`, `ritzv`). -/
def lanczos1 (E : Env) (b : Backend) (M : ℕ) : Prog Unit :=
  locals [.host M, .host M, .host 1] do
    mLanczos E b 1
    locals [.host (2 * M), .host M] (stemr E)

/-- Some statements in sequence. -/
def repeatProg (p : Prog Unit) : ℕ → Prog Unit
  | 0 => pure ()
  | k + 1 => do
    p
    repeatProg p k

/-- `Lanczos(M, numvec, upperb, ritzv, Tau, ritzV)`: chase_mpi 508-545, and the arrays that its caller allocates and
deletes (algorithm.inc 206-209, 226, 288-293, 316-319; they live a bit longer than here, `ritzVc` a bit shorter). -/
def lanczosN (E : Env) (b : Backend) (M w : ℕ) : Prog Unit :=
  locals [.host (w * M), .host (w * M), .host (M * M), .host (w * M), .host (M * M)] do
    locals [.host (M * w), .host (M * w), .host w] do
      mLanczos E b w
      locals [.host (2 * M)] (repeatProg (stemr E) w)

/-- How an orthogonalisation goes (chase_mpi 380-421): Householder because Cholesky is disabled, or a Cholesky variant
(with a shift or without), which may fail and is then replaced by Householder. -/
inductive QrPath where
  | householder
  | cholesky (shifted failed : Bool)

/-- `t_geqrf` and `t_gqr`: each has a workspace (templates 631-870). -/
def geqrfGqr (E : Env) : Prog Unit := do
  locals [.host E.work] (pure ())
  locals [.host E.work] (pure ())

/-- `t_pgeqrf` and `t_pgqr`: each makes a descriptor with `new`, which is not deleted, and has a workspace (templates
1496-1738). -/
def pgeqrfPgqr (E : Env) : Prog Unit := do
  let _ ← newAll [.host 9]
  locals [.host E.work] (pure ())
  let _ ← newAll [.host 9]
  locals [.host E.work] (pure ())

/-- `V___` is allocated by the first call: dla 1099-1103. -/
def allocFull (E : Env) (o : Obj) : Prog Obj :=
  match o.full with
  | some _ => pure o
  | none => do
    let v ← newAll (matrix 0 (E.N * E.nevex))
    pure { o with full := some v }

/-- The Householder orthogonalisation: seq 304-312, inplace 275-283, cuda 521-534, dla 1054-1116. -/
def hhQR (E : Env) (b : Backend) (o : Obj) : Prog Obj :=
  match b with
  | .seq | .inplace => locals [.host E.nevex] do
      geqrfGqr E
      pure o
  | .cuda => pure o
  | .mpi true | .mgpu _ true => locals [.host E.nevex] do
      pgeqrfPgqr E
      pure o
  | .mpi false | .mgpu _ false => locals [.host E.nevex] do
      let o ← allocFull E o
      geqrfGqr E
      pure o

/-- `estimated_cond_evaluator` and `t_gesvd` (seq 401-426, inplace 384-409, cuda 743-771, dla 1308-1342; templates
1352-1466): `rwork` is
only deleted in the version for `std::complex<double>`. -/
def condEstimate (E : Env) (k : ℕ) : Prog Unit :=
  locals [.host k, .host k, .host (E.N * E.nevex)] do
    let rwork ← new (.host (5 * min E.N k))
    locals [.host E.work] (pure ())
    if E.zdouble then delete rwork else pure ()

/-- The condition number is computed if bounds are displayed: chase_mpi 373-378, 393-396. -/
def displayCond (E : Env) (locked : ℕ) : Prog Unit :=
  if E.display then condEstimate E (E.nevex - locked) else pure ()

/-- The shifted variant on the GPU computes the shift with `computeDiagonalAbsSum` (cuda 680, 921-927), whose `d_sum` is
not freed. -/
def shiftSum (b : Backend) (shifted : Bool) : Prog Unit :=
  if shifted ∧ b = .cuda then do
    let _ ← newAll [.device 1]
    pure ()
  else pure ()

/-- `QR`: chase_mpi 351-424. -/
def qr (E : Env) (b : Backend) (path : QrPath) (locked : ℕ) (o : Obj) : Prog Obj :=
  match path with
  | .householder => hhQR E b o
  | .cholesky shifted failed => do
    displayCond E locked
    shiftSum b shifted
    if failed then hhQR E b o else pure o

/-- `RR`: seq 240-262 (`A` is local), inplace 211-233, cuda 447-478, dla 952-981; `t_heevd` allocates up to three workspaces
(templates 872-1042), the GPU backends use `d_work_`. -/
def rr (E : Env) (b : Backend) (block : ℕ) : Prog Unit :=
  match b with
  | .seq => locals [.host (block * block)] (locals [.host E.work, .host E.work, .host E.work] (pure ()))
  | .inplace | .mpi _ => locals [.host E.work, .host E.work, .host E.work] (pure ())
  | .cuda | .mgpu _ _ => pure ()

/-- `checkSymmetryEasy`: seq 143, inplace 115, cuda 335 (three vectors), dla 757-820 (four). -/
def checkSym (E : Env) : Backend → Prog Unit
  | .seq | .inplace | .cuda => locals [.host E.N, .host E.N, .host E.N] (pure ())
  | .mpi _ | .mgpu _ _ => locals [.host E.m, .host E.n, .host E.m, .host E.n] (pure ())

/-- `Swap`: seq 435-448 (`tmp` is deleted), inplace 416-423 (`tmp` is not deleted); the others use a member. -/
def swap (E : Env) : Backend → Prog Unit
  | .seq => do
    let tmp ← new (.host E.N)
    delete tmp
  | .inplace => do
    let _ ← new (.host E.N)
    pure ()
  | .cuda | .mpi _ | .mgpu _ _ => pure ()

/-- `LanczosDos`: mgpu 798-806 allocates `d_ritzVc_` on first use; the caller's `ritzVc` (algorithm.inc 288-293) is
counted with `lanczosN`. -/
def lanczosDos (b : Backend) (idx m : ℕ) (o : Obj) : Prog Obj :=
  match b with
  | .mgpu true _ => match o.ritzVc with
    | some _ => pure o
    | none => do
      let v ← new (.device (m * idx))
      pure { o with ritzVc := some v }
  | _ => pure o

variable {R : Type*}

/-- What a call does.  `path` says how each orthogonalisation goes. -/
def call (E : Env) (b : Backend) (path : QrPath) : Call R → Obj → Prog Obj
  | .checkSymmetryEasy, o => do checkSym E b; pure o
  | .qr locked _, o => qr E b path locked o
  | .lanczos1 m, o => do lanczos1 E b m; pure o
  | .lanczosN m w, o => do lanczosN E b m w; pure o
  | .lanczosDos idx m, o => lanczosDos b idx m o
  | .rr block, o => do rr E b block; pure o
  | .swap _ _, o => do swap E b; pure o
  | .start, o | .finish, o | .initVecs _, o | .shift _ _, o | .hemm _ _ _ _, o | .resd _, o | .lock _, o => pure o

/-- Calls in sequence; `path k` says how the `k`-th one goes if it is an orthogonalisation. -/
def calls (E : Env) (b : Backend) (path : ℕ → QrPath) : List (Call R) → ℕ → Obj → Prog Obj
  | [], _, o => pure o
  | c :: t, k, o => do
    let o ← call E b (path k) c o
    calls E b path t (k + 1) o

/-- Solves with the same object: `trs` lists the calls of each of them. -/
def solves (E : Env) (b : Backend) (path : ℕ → ℕ → QrPath) : List (List (Call R)) → ℕ → Obj → Prog Obj
  | [], _, o => pure o
  | tr :: trs, k, o => do
    let o ← calls E b (path k) tr 0 o
    solves E b path trs (k + 1) o

/-- A solver object is constructed and used for some solves. -/
def session (E : Env) (b : Backend) (path : ℕ → ℕ → QrPath) (trs : List (List (Call R))) : Prog Obj := do
  let o ← construct E b
  solves E b path trs 0 o

/-- A solver object is constructed, used for some solves and destroyed. -/
def lifetime (E : Env) (b : Backend) (path : ℕ → ℕ → QrPath) (trs : List (List (Call R))) : Prog Unit := do
  let o ← session E b path trs
  destruct o

end Verif.Memory

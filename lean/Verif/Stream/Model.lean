/-
The work the GPU backends hand to their devices, call by call: which library routine, kernel, copy or communication,
on which stream, and on which arrays.  Files: ChASE-MPI/impl/chase_mpidla_cuda_seq.hpp (cited as cuda),
ChASE-MPI/impl/chase_mpidla_mgpu.hpp (mgpu), ChASE-MPI/impl/chase_mpidla.hpp (dla), ChASE-MPI/mpi_wrapper.hpp
(wrapper), ChASE-MPI/chase_mpi_matrices.hpp (matrices), ChASE-MPI/chase_mpi.hpp (chase_mpi).

Simplifications.  Arrays are taken as a whole: work on some columns reads and writes the array.  What a routine
computes is left open (`Interp`), so that the theorems hold whatever it is.  Allocation (`cudaMalloc`) and release
are not listed.  Host code between two calls of the CUDA libraries is one item.  A blocking MPI operation is
performed by all its processes at once.  The call of a CUDA routine that may or may not wait for the device is taken
not to wait, which allows more executions.
-/
import Verif.Stream.Machine

namespace Verif
namespace Stream

/-- Directions of `cudaMemcpy`. -/
inductive Dir | d2d | d2h | h2d
  deriving DecidableEq, Repr

/-- What is called: host code; a routine of cuBLAS or cuSOLVER with its result on the device; one with its result in
a host variable (`cublasTnrm2`, `cublasTdot`; the pointer mode of `cublasH_` is the default, host); a kernel of
kernels/shift.cu on a stream; `cudaMemcpy`; `cublasSetMatrix`; `cublasGetMatrix`; `cudaMemset`; an MPI operation on
host arrays or (`onDev`) on device arrays; a NCCL operation. -/
inductive Routine
  | cpu
  | library
  | scalar
  | kernel (q : Queue)
  | copy (k : Dir)
  | setMatrix
  | getMatrix
  | memset
  | mpi (c : Comm) (onDev : Bool)
  | nccl (c : Comm)
  deriving DecidableEq, Repr

/-- `handles` is the stream of the cuBLAS and cuSOLVER handles.  `mpiWaits` tells whether an MPI operation on device
arrays begins by waiting for the work of the default stream (the MPI standard does not know of streams). -/
structure Setup where
  handles : Queue
  mpiWaits : Bool

/-- When a routine does its work.  CUDA documentation, "API synchronization behavior": kernels, copies within the
device and `cudaMemset` return before they are done; a copy from the device to the host returns when it is done; a
copy from pageable host memory may return before the device has the data, but not before the host memory has been
read.  `cublasSetMatrix` and `cublasGetMatrix` copy in the default stream.  NCCL operations are put into the stream
given to them, `NULL`: wrapper 93-96, 113-115, 132-134. -/
def Routine.when (S : Setup) : Routine → When
  | .cpu => .host
  | .library => .later S.handles
  | .scalar => .waits S.handles
  | .kernel q => .later q
  | .copy .d2d => .later .dflt
  | .copy .h2d => .later .dflt
  | .copy .d2h => .waits .dflt
  | .setMatrix => .later .dflt
  | .getMatrix => .waits .dflt
  | .memset => .later .dflt
  | .mpi _ false => .host
  | .mpi _ true => if S.mpiWaits then .waits .dflt else .host
  | .nccl _ => .later .dflt

/-- With whom. -/
def Routine.coll : Routine → Option Comm
  | .mpi c _ => some c
  | .nccl c => some c
  | _ => none

/-- A call: `args` is read when the call is made, `reads` when the work is done.  An array of `writes` may keep part
of its contents, so it is read as well. -/
structure Item where
  routine : Routine
  args : List Loc
  reads : List Loc
  writes : List Loc
  deriving DecidableEq, Repr

/-- The operation of the machine. -/
def Item.op (S : Setup) (label : ℕ) (x : Item) : Op :=
  { label := label, when := x.routine.when S, coll := x.routine.coll
    args := x.args, reads := x.reads ++ x.writes, writes := x.writes }

/-- An array on the device. -/
def d (a : Arr) : Loc := (.dev, a)
/-- An array on the host. -/
def h (a : Arr) : Loc := (.host, a)

/-- Host code. -/
def cpu (reads writes : List Arr) : Item := ⟨.cpu, [], reads.map h, writes.map h⟩
/-- A cuBLAS or cuSOLVER routine; its scalars are host variables. -/
def lib (reads writes : List Arr) : Item := ⟨.library, [h .scal], reads.map d, writes.map d⟩
/-- A cuBLAS routine with its result in a host variable. -/
def scalar (reads : List Arr) : Item := ⟨.scalar, [], reads.map d, [h .scal]⟩
/-- A kernel. -/
def kernel (q : Queue) (reads writes : List Arr) : Item := ⟨.kernel q, [h .scal], reads.map d, writes.map d⟩
/-- `cudaMemcpy` within the device, to the host and to the device. -/
def d2d (x y : Arr) : Item := ⟨.copy .d2d, [], [d x], [d y]⟩
def d2h (x y : Arr) : Item := ⟨.copy .d2h, [], [d x], [h y]⟩
def h2d (x y : Arr) : Item := ⟨.copy .h2d, [h x], [], [d y]⟩
/-- `cublasSetMatrix` and `cublasGetMatrix`: matrices 216-240, also under the names `syncFromPtr`, `sync2Ptr`
(243-276). -/
def up (x y : Arr) : Item := ⟨.setMatrix, [h x], [], [d y]⟩
def down (x : Arr) : Item := ⟨.getMatrix, [], [d x], [h x]⟩
/-- `cudaMemset` in the constructor of a device array: matrices 87-90. -/
def memset (x : Arr) : Item := ⟨.memset, [], [], [d x]⟩
/-- An MPI operation on host arrays. -/
def mpiHost (c : Comm) (reads writes : List Arr) : Item := ⟨.mpi c false, [], reads.map h, writes.map h⟩

namespace Cuda

/-- `stream_`: cuda 192; the handles use it (193-198). -/
def stream : Queue := .made 0

/-- cuda 190-198; there is no communication. -/
def setup : Setup := ⟨stream, false⟩

/-- How a Cholesky QR ends. -/
inductive Chol | ok | fail1 | fail2
  deriving DecidableEq, Repr

/-- Member functions of `ChaseMpiDLACudaSeq` that a solve uses, and host code between them. -/
inductive Call
  | construct
  | between (reads writes : List Arr)
  | initVecs | initRndVecs | apply | shiftMatrix | finish | rr | resd
  | checkSymmetryEasy | symOrHermMatrix
  | hhQR | cholQR1 (e : Chol) | cholQR2 (e : Chol) | shiftedcholQR2 (e : Chol) | condEvaluator | lockVectorCopy
  | swap | lanczosDos | mLanczos (M numvec : ℕ) (second : Bool)
  deriving DecidableEq, Repr

variable (V1 V2 : Arr)

/-- The first part of `cholQR1` and `cholQR2`: cuda 555-570, 605-619. -/
def cholHead : List Item :=
  [d2d V1 V2, lib [V1] [.A], lib [] [.A, .work, .info], d2h .info .scal]

/-- One round of `mLanczos`: cuda 834-896. -/
def lanczosRound (numvec : ℕ) (second first last : Bool) : List Item :=
  (if second then [] else List.replicate numvec (d2d .lan V1)) ++
  [lib [.H, .lan] [.lan]] ++ List.replicate numvec (scalar [.lan]) ++ [cpu [.scal] [.scal]] ++
  List.replicate numvec (lib [.lan] [.lan]) ++ [cpu [.scal] [.scal]] ++
  (if first then [] else List.replicate numvec (lib [.lan] [.lan])) ++ [cpu [.scal] [.scal]] ++
  List.replicate numvec (scalar [.lan]) ++ [cpu [.scal] [.scal]] ++
  (if last then [] else List.replicate numvec (lib [] [.lan]) ++ [cpu [.scal] [.scal]])

/-- What the calls hand over, with the pointers `d_V1_` and `d_V2_` given (they are exchanged by the host in `apply`
302 and `RR` 477).  Constructor 167-243 (with matrices 333-357), `initVecs` 273-278, `initRndVecs` 279-284, `apply`
293-303, `shiftMatrix` 305-308, `checkSymmetryEasy` 335-378, `symOrHermMatrix` 380-401, `End` 405-409, `RR` 447-478,
`Resd` 502-519, `hhQR` 521-535, `cholQR1` 537-585, `cholQR2` 587-649, `shiftedcholQR2` 651-741 (with
`computeDiagonalAbsSum` 921-927 and `shiftMatrixForQR` 916-919), `estimated_cond_evaluator` 743-771,
`lockVectorCopyAndOrthoConcatswap` 773-777, `Swap` 779-787, `LanczosDos` 789-800, `mLanczos` 802-903 (with the
batched operations 934-979). -/
def items : Call → List Item
  | .construct => [memset .H, memset .C, memset .B, memset .A, memset .ritzv, memset .resid]
  | .between reads writes => [cpu reads writes]
  | .initVecs => [d2d V1 V2, up .H .H]
  | .initRndVecs => [kernel .dflt [] [.states, V1]]
  | .apply => [lib [.H, V1] [V2]]
  | .shiftMatrix => [kernel stream [] [.H]]
  | .finish => [d2h V1 .C]
  | .rr => [lib [.H, V1] [V2], lib [V2, V1] [.A], lib [] [.A, .ritzv, .work, .info], d2h .ritzv .ritzv,
      lib [V1, .A] [V2]]
  | .resd => [lib [.H, V1] [V2], kernel .dflt [V2, V1, .ritzv] [.resid], d2h .resid .resid]
  | .checkSymmetryEasy => [cpu [.H] [.scal]]
  | .symOrHermMatrix => [cpu [.H] [.H]]
  | .hhQR => [d2d V1 V2, lib [] [V1, .ret, .work, .info], lib [.ret] [V1, .work, .info]]
  | .cholQR1 e => cholHead V1 V2 ++ (if e = .ok then [lib [.A] [V1]] else [])
  | .cholQR2 e => cholHead V1 V2 ++
      (if e = .ok then [lib [.A] [V1], lib [V1] [.A], lib [] [.A, .work, .info], lib [.A] [V1]] else [])
  | .shiftedcholQR2 e =>
      [d2d V1 V2, lib [V1] [.A], kernel .dflt [.A] [.sum], d2h .sum .scal, cpu [.scal] [.scal],
       kernel stream [] [.A], lib [] [.A, .work, .info], d2h .info .scal] ++
      (if e = .fail1 then [] else
        [lib [.A] [V1], lib [V1] [.A], lib [] [.A, .work, .info], d2h .info .scal] ++
        (if e = .fail2 then [] else
          [lib [.A] [V1], lib [V1] [.A], lib [] [.A, .work, .info], lib [.A] [V1]]))
  | .condEvaluator => [d2h V1 .redund, cpu [.redund] [.redund, .scal]]
  | .lockVectorCopy => [d2d V2 V1]
  | .swap => [d2d V1 .dv, d2d V1 V1, d2d .dv V1]
  | .lanczosDos => [up .scal .A, lib [V1, .A] [V2], d2d V2 V1]
  | .mLanczos M numvec second =>
      [memset .lan, memset .lan, memset .lan, d2d V1 .lan] ++ List.replicate numvec (scalar [.lan]) ++
      [cpu [.scal] [.scal]] ++ List.replicate numvec (lib [] [.lan]) ++
      (List.range M).flatMap (fun k => lanczosRound V1 numvec second (k = 0) (k + 1 = M)) ++
      (if second then [] else [d2d .lan V1])

/-- The calls after which `d_V1_` and `d_V2_` have changed places: cuda 302, 477. -/
def Call.swaps : Call → Bool
  | .apply => true
  | .rr => true
  | _ => false

/-- A sequence of calls. -/
def script (V1 V2 : Arr) : List Call → List Item
  | [] => []
  | c :: cs => items V1 V2 c ++ if c.swaps then script V2 V1 cs else script V1 V2 cs

end Cuda

namespace Mgpu

/-- How communication is done: through host arrays (`CUDA_AWARE` not defined), or on device arrays with NCCL or with
MPI: dla 316-345. -/
inductive Variant | staged | nccl | mpi
  deriving DecidableEq, Repr

/-- `stream1_`: mgpu 372. -/
def stream1 : Queue := .made 1

/-- The handles are left on the default stream: mgpu 317-320. -/
def setup (mpiWaits : Bool) : Setup := ⟨.dflt, mpiWaits⟩

/-- Member functions of `ChaseMpiDLA` on top of `ChaseMpiDLAMultiGPU` that a solve uses, and host code between them.
`bAc` is the direction of `apply`; `runs` is the number of broadcasts a process takes part in when it redistributes
vectors (`none` if rows and columns are distributed alike: dla 665-704);
`copied` is `isCcopied`. -/
inductive Call
  | construct
  | between (reads writes : List Arr)
  | initVecs | initRndVecs
  | apply (bAc : Bool)
  | shiftMatrix | finish
  | rr (runs : Option ℕ) (copied : Bool)
  | resd (runs : Option ℕ)
  | checkSymmetryEasy | symOrHermMatrix
  | hhQR (scalapack : Bool)
  | cholQR1 (e : Cuda.Chol) | cholQR2 (e : Cuda.Chol) | shiftedcholQR2 (e : Cuda.Chol)
  | condEvaluator
  | lockVectorCopy (isHHqr : Bool)
  | swap | lanczosDos | mLanczos (M numvec : ℕ) (second : Bool)
  deriving DecidableEq, Repr

variable (v : Variant)

/-- `CUDA_AWARE`. -/
def Variant.aware (v : Variant) : Bool := v ≠ .staged

/-- Only without `CUDA_AWARE`. -/
def ifStaged (l : List Item) : List Item := if v.aware then [] else l
/-- Only with `CUDA_AWARE`. -/
def ifAware (l : List Item) : List Item := if v.aware then l else []

/-- `AllReduce` and `Bcast` (wrapper 85-140) on the arrays of dla 308-315: on the host, or on the device. -/
def comm (c : Comm) (reads writes : List Arr) : Item :=
  match v with
  | .staged => ⟨.mpi c false, [], reads.map h, writes.map h⟩
  | .nccl => ⟨.nccl c, [], reads.map d, writes.map d⟩
  | .mpi => ⟨.mpi c true, [], reads.map d, writes.map d⟩

/-- `Memcpy` (wrapper 143-163) with `memcpy_mode[0]`: dla 327, 340. -/
def copy0 (x y : Arr) : Item := if v.aware then d2d x y else cpu [x] [y]
/-- `lacpy`: mgpu 836-845. -/
def lacpy (x y : Arr) : Item := if v.aware then kernel .dflt [x] [y] else cpu [x] [y]

/-- `asynCxHGatherC`: dla 657-716, mgpu 514-534. -/
def asynCxHGatherC (runs : Option ℕ) (copied : Bool) : List Item :=
  (match runs with
    | none => [comm v .col [.C2] [.C2, .B2], lacpy v .C2 .B2]
    | some n => (List.replicate n [lacpy v .C2 .pack, comm v .col [.pack] [.pack], lacpy v .pack .B2]).flatten) ++
  (if copied then [] else ifStaged v [up .C .C]) ++ [lib [.H, .C] [.B]] ++ ifStaged v [down .B] ++
  [comm v .col [.B] [.B]]

/-- `syherk` (mgpu 627-654, `first` being `first_iter` of dla 1153, 1189, 1238 in the first call and false
afterwards) and the reduction after it. -/
def syherk (first : Bool) : List Item :=
  (if first && !v.aware then [up .C .C] else []) ++ [lib [.C] [.A]] ++ ifStaged v [down .A] ++
  [comm v .col [.A] [.A]]
/-- `potrf`: mgpu 656-680. -/
def potrf (isinfo : Bool) : List Item :=
  ifStaged v [up .A .A] ++ [lib [] [.A, .work, .info]] ++ (if isinfo then [d2h .info .scal] else [])
/-- `trsm`: mgpu 682-697. -/
def trsm (first : Bool) : List Item :=
  [lib [.A] [.C]] ++ (if first then [] else ifStaged v [down .C])
/-- `computeDiagonalAbsSum`, mgpu 859-872. -/
def absSum : List Item := if v.aware then [kernel .dflt [.A] [.sum], d2h .sum .scal] else [cpu [.A] [.scal]]
/-- `shiftMatrixForQR`: mgpu 847-857. -/
def shiftForQR : List Item := if v.aware then [kernel stream1 [] [.A]] else [cpu [.A, .scal] [.A]]

/-- `hhQR`: dla 1054-1118. -/
def hhQR (scalapack : Bool) : List Item :=
  ifAware v [down .C] ++
  (if scalapack then mpiHost .col [.C] [.C] :: ifAware v [up .C .C]
   else [mpiHost .col [.C] [.redund], cpu [.redund] [.redund], cpu [.redund] [.C]])

/-- One round of `mLanczos`: dla 1421-1499, with `applyVec` mgpu 909-925 and `B2C` dla 1507-1544. -/
def lanczosRound (numvec : ℕ) (second first last : Bool) : List Item :=
  (if second then [] else List.replicate numvec (if v.aware then h2d .lan .C else cpu [.lan] [.C])) ++
  [up .lan .lan, lib [.H, .lan] [.lan], down .lan, mpiHost .col [.lan] [.lan], mpiHost .row [.lan] [.lan],
   cpu [.lan] [.lan], cpu [.lan] [.scal], mpiHost .col [.scal] [.scal], cpu [.scal, .lan] [.lan, .scal]] ++
  (if first then [] else [cpu [.scal, .lan] [.lan, .scal]]) ++
  [cpu [.lan] [.scal], mpiHost .col [.scal] [.scal], cpu [.scal] [.scal]] ++
  (if last then [] else [cpu [.scal, .lan] [.lan, .scal]])

/-- What the calls hand over.  Constructor mgpu 261-380 (with matrices 389-421 and `buff__`, dla 347-354), `initVecs` dla 373-383,
mgpu 405-416, `initRndVecs` mgpu 422-434, `apply` dla 472-523, mgpu 452-497, `shiftMatrix` dla 725-741, mgpu 505-510
(`preApplication`, mgpu 438-447, copies nothing for `locked = 0`), `End` mgpu 564-569, `RR` dla 952-982, mgpu 609-625,
728-761 (`heevd`), `Resd` dla 984-1020, mgpu 706-724, `checkSymmetryEasy` and `symOrHermMatrix` dla 757-889, the
orthogonalisations dla 1054-1306, `estimated_cond_evaluator` dla 1308-1342, `lockVectorCopyAndOrthoConcatswap` dla
1344-1358 (with `cudaMemcpyDeviceToHost` for two device arrays after a Cholesky QR, dla 328, 1355), `Swap` dla
1360-1369, `LanczosDos` mgpu 798-821, `mLanczos` dla 1376-1505. -/
def items : Call → List Item
  | .construct => [memset .H, memset .C, memset .C2, memset .B, memset .B2, memset .A, memset .ritzv, memset .resid,
      memset .vv] ++ ifAware v [memset .pack] ++ [h2d .scal .offs, h2d .scal .offs]
  | .between reads writes => [cpu reads writes]
  | .initVecs => [copy0 v .C .C2, up .H .H]
  | .initRndVecs => kernel .dflt [] [.states, .C] :: ifStaged v [down .C]
  | .apply true => ifStaged v [up .C .C] ++ [lib [.H, .C] [.B]] ++ ifStaged v [down .B] ++ [comm v .col [.B] [.B]]
  | .apply false => ifStaged v [up .B .B] ++ [lib [.H, .B] [.C]] ++ ifStaged v [down .C] ++ [comm v .row [.C] [.C]]
  | .shiftMatrix => [kernel .dflt [.offs] [.H]]
  | .finish => ifAware v [down .C]
  | .rr runs copied => asynCxHGatherC v runs copied ++
      ifStaged v [up .B .B, up .B2 .B2] ++ [lib [.B2, .B] [.A]] ++ ifStaged v [down .A] ++
      [comm v .row [.A] [.A]] ++
      ifStaged v [up .A .A] ++ [lib [] [.A, .ritzv, .work, .info], d2h .ritzv .ritzv] ++ ifStaged v [up .C2 .C2] ++
      [lib [.C2, .A] [.C]] ++ ifStaged v [down .C] ++ [copy0 v .C .C2]
  | .resd runs => asynCxHGatherC v runs true ++
      [if v.aware then kernel .dflt [.B, .B2, .ritzv] [.resid] else cpu [.ritzv, .B2] [.B, .resid],
       comm v .row [.resid] [.resid]] ++ ifAware v [down .resid] ++ [cpu [.resid] [.resid]]
  | .checkSymmetryEasy => [cpu [] [.scal], mpiHost .col [.scal] [.scal], cpu [.H, .scal] [.scal],
      mpiHost .col [.scal] [.scal], cpu [.H, .scal] [.scal], mpiHost .row [.scal] [.scal],
      mpiHost .row [.scal] [.scal], cpu [.scal] [.scal], mpiHost .col [.scal] [.scal]]
  | .symOrHermMatrix => [mpiHost .col [.H] [.H], mpiHost .row [.H] [.H], cpu [.H] [.H]]
  | .hhQR scalapack => hhQR v scalapack
  | .cholQR1 e => syherk v true ++ potrf v true ++ (if e = .ok then trsm v false else [])
  | .cholQR2 e => syherk v true ++ potrf v true ++
      (if e = .ok then trsm v true ++ syherk v false ++ potrf v false ++ trsm v false else [])
  | .shiftedcholQR2 e => syherk v true ++ absSum v ++ [cpu [.scal] [.scal]] ++ shiftForQR v ++ potrf v true ++
      (if e = .fail1 then [] else trsm v true ++ syherk v false ++ potrf v true ++
        (if e = .fail2 then [] else trsm v true ++ syherk v false ++ potrf v false ++ trsm v false))
  | .condEvaluator => ifAware v [down .C] ++ [mpiHost .col [.C] [.redund], cpu [.redund] [.redund, .scal]]
  | .lockVectorCopy isHHqr => [copy0 v .C2 .C,
      if v.aware && !isHHqr then ⟨.copy .d2h, [], [d .C], [d .C2]⟩ else copy0 v .C .C2]
  | .swap => (List.replicate 2 [copy0 v .C .vv, copy0 v .C .C, copy0 v .vv .C]).flatten
  | .lanczosDos => if v.aware then [h2d .scal .ritzVc, lib [.C, .ritzVc] [.C2], d2d .C2 .C]
      else [cpu [.C, .scal] [.C2], cpu [.C2] [.C]]
  | .mLanczos M numvec second =>
      [cpu [] [.lan], memset .lan, memset .lan, memset .lan, memset .lan,
       if v.aware then d2h .C .lan else cpu [.C] [.lan], cpu [.lan] [.scal], mpiHost .col [.scal] [.scal],
       cpu [.scal, .lan] [.scal, .lan]] ++
      (List.range M).flatMap (fun k => lanczosRound v numvec second (k = 0) (k + 1 = M)) ++
      (if second then [] else [if v.aware then h2d .lan .C else cpu [.lan] [.C]])

/-- A sequence of calls, made by all processes. -/
def script (cs : List Call) : List Item := cs.flatMap (items v)

end Mgpu

/-- A run in which every process performs the operations of a list, one after the other. -/
def listProg (g : Grid) (V : Type*) (S : Setup) (l : List Item) : Prog g V := fun _ k _ =>
  (l[k]?).map (Item.op S k)

end Stream
end Verif

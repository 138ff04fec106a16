/-
What happens when memory runs out: every request for memory that the constructors and the calls of the solver make, and
what the code does if the request is refused.

Cited files: as in Verif/Memory/Model.lean; wrapper = ChASE-MPI/blas_cuda_wrapper.hpp.

Simplifications, besides those of Verif/Memory/Model.lean (apart from the last, "allocations succeed"): communicators,
datatypes, process grids, handles and streams are no memory and are taken to be granted; so is what the standard library
allocates to administer a block (`std::make_shared`).  A program that is stopped may have printed a message and called
`exit` (wrapper 683-694) or be left by an exception (`std::bad_alloc`); what the caller, the C interface or the other
processes then do is not modelled.  Later calls of CUDA or cuBLAS that are handed an array that does not exist may fail
and be noticed or not: what is modelled is whether the request itself is.
-/
import Verif.Memory.Kept

set_option linter.unusedSectionVars false

namespace Verif.Memory

/-- What the code does if a request is refused. -/
inductive Notice where
  /-- `new`, `std::vector`, `std::allocator`, `std::make_unique`: an exception is thrown -/
  | throws
  /-- `cuda_exec(cudaMalloc(..))`: a message is printed and the program ends with `EXIT_FAILURE` (wrapper 683-694) -/
  | exits
  /-- the status of `cudaMalloc` or `cudaMallocHost` is not looked at: the code goes on -/
  | ignored
  /-- the status of `cudaMallocHost` is not looked at and the host then writes to the block: matrices 39-42 -/
  | written
  /-- not a request for memory -/
  | granted
  deriving DecidableEq

/-- Whether something is memory. -/
def Res.isMemory : Res → Bool
  | .host _ | .device _ => true
  | _ => false

/-- A request for something. -/
structure Req where
  res : Res
  notice : Notice
  deriving DecidableEq

/-- Requests of the same kind. -/
def ask (n : Notice) (rs : List Res) : List Req := rs.map fun r => ⟨r, n⟩

/-- `Matrix(mode, m, n)`: matrices 128-152; `CpuMem(size)` 34, `CpuMem(size, true)` 39-42, `GpuMem(size)` 89-90. -/
def matrixReq (mode elems : ℕ) : List Req :=
  match mode with
  | 0 => [⟨.host elems, .throws⟩]
  | 1 => [⟨.host elems, .written⟩, ⟨.device elems, .ignored⟩]
  | _ => [⟨.device elems, .ignored⟩]

/-- `Matrix(mode, m, n, ptr, ld)`: matrices 154-179; `GpuMem(size)` 89-90. -/
def matrixOfReq (mode elems : ℕ) : List Req :=
  match mode with
  | 0 => []
  | _ => [⟨.device elems, .ignored⟩]

/-- `matrices_` of the backends for one process: matrices 333-357. -/
def matricesSeqReq (E : Env) (gpu : Bool) : List Req :=
  let one := if gpu then 1 else 0
  let only := if gpu then 2 else 0
  matrixOfReq one (E.N * E.N) ++ matrixOfReq one (E.N * E.nevex) ++ matrixReq only (E.N * E.nevex) ++
    matrixReq only (E.nevex * E.nevex) ++ matrixOfReq one E.nevex ++ matrixReq one E.nevex

/-- `matrices_` of the distributed backends: matrices 389-421. -/
def matricesMpiReq (E : Env) (mode : ℕ) : List Req :=
  let gpu := if mode = 0 then 0 else 1
  matrixOfReq gpu (E.m * E.n) ++ matrixOfReq mode (E.m * E.nevex) ++ matrixReq mode (E.m * E.nevex) ++
    matrixReq mode (E.n * E.nevex) ++ matrixReq mode (E.n * E.nevex) ++ matrixReq mode (E.nevex * E.nevex) ++
    matrixOfReq gpu E.nevex ++ matrixReq gpu E.nevex ++ matrixReq gpu E.m

/-- `buff__`: dla 346-353. -/
def dlaOwnedReq (E : Env) (aware : Bool) : List Req :=
  if E.sameDist then [] else matrixReq (if aware then 2 else 0) (E.maxRun * E.nevex)

/-- Communicators, process grids, datatypes, and the array of `t_descinit` (templates 1475, `new`). -/
def dlaLostReq (E : Env) (scalapack : Bool) : List Req :=
  ask .granted (List.replicate 6 .comm) ++
    (if scalapack then [⟨.context, .granted⟩, ⟨.host 9, .throws⟩, ⟨.context, .granted⟩] else []) ++
    ask .granted (List.replicate (E.rows + E.cols + E.types) .mpiType)

/-- Requests for the members that the destructor releases. -/
def Backend.ownedReq (E : Env) : Backend → List Req
  /- seq 34-47 (`new`, `Matrix` of mode 0) -/
  | .seq => matricesSeqReq E false ++ matrixReq 0 (E.N * (E.nev + E.nev)) ++ matrixReq 0 (E.N * (E.nev + E.nev))
  | .inplace => matricesSeqReq E false
  /- cuda 183-184 (checked), 186-188 (not checked), 190-191, 201, 203, 204, 238, 240-242 (checked) -/
  | .cuda => matricesSeqReq E true ++ ask .exits [.device E.N, .device E.N] ++
      ask .ignored [.host E.N, .host E.N, .host E.N] ++ ask .granted [.handle, .handle] ++
      ask .exits [.device (256 * 32), .device 1, .device E.nevex, .device E.work, .device E.N, .device E.N, .device E.N]
  | .mpi _ => matricesMpiReq E 0 ++ dlaOwnedReq E false
  /- mgpu 312 (checked), 317, 319, 321, 344 (checked), 366-367 (not checked), 372-373, 375 (not checked) -/
  | .mgpu aware _ => matricesMpiReq E (mgpuMode aware) ++ (ask .exits [.device (256 * 32)] ++
      ask .granted [.handle, .handle] ++ ask .exits [.device 1, .device E.work] ++
      ask .ignored [.device E.diag, .device E.diag] ++ ask .granted [.stream, .stream] ++
      ask .ignored [.device 1]) ++ dlaOwnedReq E aware

/-- Requests of the constructor for what the destructor does not release: cuda 192, 196; mgpu 314-315 (checked), 318. -/
def Backend.lostReq (E : Env) : Backend → List Req
  | .seq | .inplace => []
  | .cuda => ask .granted [.stream, .handle]
  | .mpi scalapack => dlaLostReq E scalapack
  | .mgpu _ scalapack => ask .exits [.device E.m, .device E.n] ++ ask .granted [.handle] ++ dlaLostReq E scalapack

/-- The constructors (chase_mpi 111-122, 188-207; the order within a constructor is not kept). -/
def constructReq (E : Env) (b : Backend) : List Req := b.lostReq E ++ b.ownedReq E

/-- The matrices of `mLanczos`: seq 475-477, inplace 450-452, cuda 816-818, dla 1390-1398. -/
def lanczosMatsReq (E : Env) (w : ℕ) : Backend → List Req
  | .seq | .inplace => matrixReq 0 (E.N * w) ++ matrixReq 0 (E.N * w) ++ matrixReq 0 (E.N * w)
  | .cuda => matrixReq 2 (E.N * w) ++ matrixReq 2 (E.N * w) ++ matrixReq 2 (E.N * w)
  | .mpi _ => matrixReq 0 (E.m * w) ++ matrixReq 0 (E.m * w) ++ matrixReq 0 (E.m * w) ++ matrixReq 0 (E.n * w)
  | .mgpu _ _ => matrixReq 1 (E.m * w) ++ matrixReq 1 (E.m * w) ++ matrixReq 1 (E.m * w) ++ matrixReq 1 (E.n * w)

/-- `mLanczos`: three local vectors and the matrices. -/
def mLanczosReq (E : Env) (b : Backend) (w : ℕ) : List Req :=
  ask .throws [.host w, .host w, .host w] ++ lanczosMatsReq E w b

/-- `t_stemr`: templates 1148-1240. -/
def stemrReq (E : Env) : List Req := ask .throws [.host E.work, .host E.work]

/-- `Lanczos(M, upperb)`: chase_mpi 481-501. -/
def lanczos1Req (E : Env) (b : Backend) (M : ℕ) : List Req :=
  ask .throws [.host M, .host M, .host 1] ++ (mLanczosReq E b 1 ++ (ask .throws [.host (2 * M), .host M] ++ stemrReq E))

/-- Requests again and again. -/
def repeatReq (q : List Req) : ℕ → List Req
  | 0 => []
  | k + 1 => q ++ repeatReq q k

/-- `Lanczos(M, numvec, ..)`: chase_mpi 508-545, and the arrays of its caller (algorithm.inc 206-209, 226, 288-293). -/
def lanczosNReq (E : Env) (b : Backend) (M w : ℕ) : List Req :=
  ask .throws [.host (w * M), .host (w * M), .host (M * M), .host (w * M), .host (M * M)] ++
    (ask .throws [.host (M * w), .host (M * w), .host w] ++
      (mLanczosReq E b w ++ (ask .throws [.host (2 * M)] ++ repeatReq (stemrReq E) w)))

/-- `t_geqrf` and `t_gqr`: templates 631-870. -/
def geqrfGqrReq (E : Env) : List Req := ask .throws [.host E.work, .host E.work]

/-- `t_pgeqrf` and `t_pgqr`: templates 1496-1738. -/
def pgeqrfPgqrReq (E : Env) : List Req := ask .throws [.host 9, .host E.work, .host 9, .host E.work]

/-- The buffers that are allocated on first use and already exist: `V___` and `d_ritzVc_`. -/
structure Has where
  full : Bool
  ritzVc : Bool

/-- `V___` is allocated by the first call: dla 1099-1103. -/
def allocFullReq (E : Env) (s : Has) : List Req := if s.full then [] else matrixReq 0 (E.N * E.nevex)

/-- The Householder orthogonalisation: seq 304-312, inplace 275-283, cuda 521-534, dla 1054-1116. -/
def hhQRReq (E : Env) (b : Backend) (s : Has) : List Req × Has :=
  match b with
  | .seq | .inplace => (ask .throws [.host E.nevex] ++ geqrfGqrReq E, s)
  | .cuda => ([], s)
  | .mpi true | .mgpu _ true => (ask .throws [.host E.nevex] ++ pgeqrfPgqrReq E, s)
  | .mpi false | .mgpu _ false =>
    (ask .throws [.host E.nevex] ++ (allocFullReq E s ++ geqrfGqrReq E), { s with full := true })

/-- `estimated_cond_evaluator` and `t_gesvd`: seq 401-426, inplace 384-409, cuda 743-771, dla 1308-1342; templates
1352-1466. -/
def condEstimateReq (E : Env) (k : ℕ) : List Req :=
  ask .throws [.host k, .host k, .host (E.N * E.nevex), .host (5 * min E.N k), .host E.work]

/-- chase_mpi 373-378, 393-396. -/
def displayCondReq (E : Env) (locked : ℕ) : List Req :=
  if E.display then condEstimateReq E (E.nevex - locked) else []

/-- `computeDiagonalAbsSum`: cuda 924 (not checked). -/
def shiftSumReq (b : Backend) (shifted : Bool) : List Req :=
  if shifted ∧ b = .cuda then ask .ignored [.device 1] else []

/-- `QR`: chase_mpi 351-424. -/
def qrReq (E : Env) (b : Backend) (path : QrPath) (locked : ℕ) (s : Has) : List Req × Has :=
  match path with
  | .householder => hhQRReq E b s
  | .cholesky shifted failed =>
    let r := if failed then hhQRReq E b s else ([], s)
    (displayCondReq E locked ++ (shiftSumReq b shifted ++ r.1), r.2)

/-- `RR`: seq 247, inplace 211-233, dla 952-981; `t_heevd` templates 872-1042. -/
def rrReq (E : Env) (b : Backend) (block : ℕ) : List Req :=
  match b with
  | .seq => ask .throws [.host (block * block), .host E.work, .host E.work, .host E.work]
  | .inplace | .mpi _ => ask .throws [.host E.work, .host E.work, .host E.work]
  | .cuda | .mgpu _ _ => []

/-- `checkSymmetryEasy`: seq 143, inplace 115, cuda 335, dla 757-820. -/
def checkSymReq (E : Env) : Backend → List Req
  | .seq | .inplace | .cuda => ask .throws [.host E.N, .host E.N, .host E.N]
  | .mpi _ | .mgpu _ _ => ask .throws [.host E.m, .host E.n, .host E.m, .host E.n]

/-- `Swap`: seq 437, inplace 416-423. -/
def swapReq (E : Env) : Backend → List Req
  | .seq | .inplace => ask .throws [.host E.N]
  | .cuda | .mpi _ | .mgpu _ _ => []

/-- `LanczosDos`: mgpu 803-806 (checked). -/
def lanczosDosReq (b : Backend) (idx m : ℕ) (s : Has) : List Req × Has :=
  match b with
  | .mgpu true _ => if s.ritzVc then ([], s) else (ask .exits [.device (m * idx)], { s with ritzVc := true })
  | _ => ([], s)

variable {R : Type*}

/-- The requests of a call. -/
def callReq (E : Env) (b : Backend) (path : QrPath) : Call R → Has → List Req × Has
  | .checkSymmetryEasy, s => (checkSymReq E b, s)
  | .qr locked _, s => qrReq E b path locked s
  | .lanczos1 m, s => (lanczos1Req E b m, s)
  | .lanczosN m w, s => (lanczosNReq E b m w, s)
  | .lanczosDos idx m, s => lanczosDosReq b idx m s
  | .rr block, s => (rrReq E b block, s)
  | .swap _ _, s => (swapReq E b, s)
  | .start, s | .finish, s | .initVecs _, s | .shift _ _, s | .hemm _ _ _ _, s | .resd _, s | .lock _, s => ([], s)

/-- The requests of calls in sequence. -/
def callsReq (E : Env) (b : Backend) (path : ℕ → QrPath) : List (Call R) → ℕ → Has → List Req × Has
  | [], _, s => ([], s)
  | c :: t, k, s =>
    let r := callReq E b (path k) c s
    let u := callsReq E b path t (k + 1) r.2
    (r.1 ++ u.1, u.2)

/-- The requests of solves with the same object. -/
def solvesReq (E : Env) (b : Backend) (path : ℕ → ℕ → QrPath) : List (List (Call R)) → ℕ → Has → List Req × Has
  | [], _, s => ([], s)
  | tr :: trs, k, s =>
    let r := callsReq E b (path k) tr 0 s
    let u := solvesReq E b path trs (k + 1) r.2
    (r.1 ++ u.1, u.2)

/-- The requests of a constructor and of some solves. -/
def sessionReq (E : Env) (b : Backend) (path : ℕ → ℕ → QrPath) (trs : List (List (Call R))) : List Req :=
  constructReq E b ++ (solvesReq E b path trs 0 ⟨false, false⟩).1

/-- Who grants the requests: decides on a request given all requests before it and the answers to them. -/
abbrev Allocator := List (Req × Bool) → Req → Bool

/-- How a program ends. -/
inductive Ending where
  /-- by an exception or by `exit`, after a refused request -/
  | stopped
  /-- the host writes through a pointer that was never set -/
  | undefined
  /-- it goes on to its end, without the blocks listed -/
  | returned (missing : List Res)
  deriving DecidableEq

/-- The end of a program one of whose blocks is missing. -/
def Ending.without (r : Res) : Ending → Ending
  | .returned l => .returned (r :: l)
  | e => e

/-- The program makes its requests one after another (`past`: those before, newest first). -/
def run (al : Allocator) : List (Req × Bool) → List Req → Ending
  | _, [] => .returned []
  | past, q :: qs =>
    if q.res.isMemory = false ∨ al past q = true then run al ((q, true) :: past) qs
    else match q.notice with
      | .throws | .exits => .stopped
      | .written => .undefined
      | _ => (run al ((q, false) :: past) qs).without q.res

/-! ### The requests are the acquisitions of the model of resources -/

/-- What was acquired so far, newest first. -/
def Heap.acquired (h : Heap) : List (Option Res) := h.past.map fun l => l.head?.map Prod.snd

/-- The program acquires `rs`, in this order, and its result is such that `Q`. -/
def Acq {α : Type} (p : Prog α) (rs : List Res) (Q : α → Prop) : Prop :=
  ∀ h x h', p h = some (x, h') → h'.acquired = (rs.map some).reverse ++ h.acquired ∧ Q x

variable {α β : Type}

theorem Acq.pure {Q : α → Prop} {x : α} (h : Q x) : Acq (Pure.pure x) [] Q := by
  intro h0 y h1 e
  have e : some (x, h0) = some (y, h1) := e
  injection e with e
  injection e with e1 e2
  subst e1 e2
  exact ⟨rfl, h⟩

theorem Acq.bind {Q : α → Prop} {Q' : β → Prop} {p : Prog α} {k : α → Prog β} {rs rs' : List Res} (hp : Acq p rs Q)
    (hk : ∀ x, Q x → Acq (k x) rs' Q') : Acq (p >>= k) (rs ++ rs') Q' := by
  intro h y h' e
  obtain ⟨x, h1, e1, e2⟩ := bind_some e
  obtain ⟨a1, a2⟩ := hp h x h1 e1
  obtain ⟨b1, b2⟩ := hk x a2 h1 y h' e2
  refine ⟨?_, b2⟩
  rw [b1, a1]
  simp

theorem Acq.cast {Q : α → Prop} {p : Prog α} {rs rs' : List Res} (hp : Acq p rs Q) (h : rs = rs') : Acq p rs' Q := h ▸ hp

theorem Acq.mono {Q Q' : α → Prop} {p : Prog α} {rs : List Res} (hp : Acq p rs Q) (h : ∀ x, Q x → Q' x) : Acq p rs Q' :=
  fun h0 x h1 e => ⟨(hp h0 x h1 e).1, h x (hp h0 x h1 e).2⟩

theorem Acq.new (r : Res) : Acq (new r) [r] fun _ => True := by
  intro h x h' e
  unfold Memory.new at e
  injection e with e
  injection e with e1 e2
  subst e2
  exact ⟨rfl, trivial⟩

theorem Acq.delete (a : ℕ × Res) : Acq (delete a) [] fun _ => True := by
  intro h x h' e
  unfold Memory.delete at e
  split at e
  · injection e with e
    injection e with e1 e2
    subst e2
    exact ⟨rfl, trivial⟩
  · exact absurd e (by simp)

theorem Acq.newAll (rs : List Res) : Acq (newAll rs) rs fun _ => True := by
  induction rs with
  | nil => exact Acq.pure trivial
  | cons r t ih =>
    exact ((Acq.new r).bind fun _ _ => ih.bind fun _ _ => Acq.pure trivial).cast (by simp)

theorem Acq.deleteAll (as : List (ℕ × Res)) : Acq (deleteAll as) [] fun _ => True := by
  induction as with
  | nil => exact Acq.pure trivial
  | cons a t ih => exact ((Acq.delete a).bind fun _ _ => ih).cast (by simp)

theorem Acq.locals {Q : α → Prop} {p : Prog α} (rs : List Res) {rs' : List Res} (hp : Acq p rs' Q) :
    Acq (Memory.locals rs p) (rs ++ rs') Q :=
  ((Acq.newAll rs).bind fun as _ => hp.bind fun x hx => (Acq.deleteAll as.reverse).bind fun _ _ =>
    Acq.pure (x := x) hx).cast (by simp)

theorem Acq.local0 (rs : List Res) : Acq (Memory.locals rs (Pure.pure ())) rs fun _ => True :=
  Acq.cast (Acq.locals rs (Acq.pure trivial)) (List.append_nil rs)

theorem ask_res (n : Notice) (rs : List Res) : (ask n rs).map Req.res = rs := by
  unfold ask
  rw [List.map_map]
  exact List.map_id _

theorem matrixReq_res (mode e : ℕ) : (matrixReq mode e).map Req.res = matrix mode e := by
  match mode with
  | 0 => rfl
  | 1 => rfl
  | _ + 2 => rfl

theorem matrixOfReq_res (mode e : ℕ) : (matrixOfReq mode e).map Req.res = matrixOf mode e := by
  match mode with
  | 0 => rfl
  | _ + 1 => rfl

theorem constructReq_res (E : Env) (b : Backend) : (constructReq E b).map Req.res = b.lost E ++ b.owned E := by
  have hl (sc : Bool) : (dlaLostReq E sc).map Req.res = dlaLost E sc := by
    unfold dlaLostReq dlaLost
    rw [List.map_append, List.map_append, ask_res, ask_res]
    cases sc <;> rfl
  have ho (aw : Bool) : (dlaOwnedReq E aw).map Req.res = dlaOwned E aw := by
    unfold dlaOwnedReq dlaOwned
    split_ifs
    · rfl
    · exact matrixReq_res _ _
    · exact matrixReq_res _ _
  unfold constructReq
  rw [List.map_append]
  cases b <;> simp [Backend.lostReq, Backend.lost, Backend.ownedReq, Backend.owned, ask_res, matrixReq_res, matrixOfReq_res,
    matricesSeqReq, matricesSeq, matricesMpiReq, matricesMpi, hl, ho]

theorem construct_acq (E : Env) (b : Backend) :
    Acq (construct E b) ((constructReq E b).map Req.res) fun o => o.full.isSome = false ∧ o.ritzVc.isSome = false :=
  Acq.cast ((Acq.newAll _).bind fun _ _ => (Acq.newAll _).bind fun _ _ => Acq.pure ⟨rfl, rfl⟩) (by
    rw [constructReq_res, List.append_nil])

/-- The buffers of the object that exist. -/
def Obj.has (o : Obj) : Has := ⟨o.full.isSome, o.ritzVc.isSome⟩

theorem lanczosMatsReq_res (E : Env) (w : ℕ) (b : Backend) : (lanczosMatsReq E w b).map Req.res = lanczosMats E w b := by
  cases b <;> simp [lanczosMatsReq, lanczosMats, matrixReq_res]

theorem mLanczos_acq (E : Env) (b : Backend) (w : ℕ) : Acq (mLanczos E b w) ((mLanczosReq E b w).map Req.res) fun _ => True :=
  Acq.cast (Acq.locals _ ((Acq.newAll _).bind fun _ _ => Acq.pure trivial)) (by
    rw [mLanczosReq, List.map_append, ask_res, lanczosMatsReq_res, List.append_nil])

theorem stemr_acq (E : Env) : Acq (stemr E) ((stemrReq E).map Req.res) fun _ => True :=
  Acq.cast (Acq.local0 _) (by rw [stemrReq, ask_res])

theorem repeat_acq {p : Prog Unit} {q : List Req} (hp : Acq p (q.map Req.res) fun _ => True) (k : ℕ) :
    Acq (repeatProg p k) ((repeatReq q k).map Req.res) fun _ => True := by
  induction k with
  | zero => exact Acq.pure trivial
  | succ k ih => exact Acq.cast (hp.bind fun _ _ => ih) (by rw [repeatReq, List.map_append])

theorem lanczos1_acq (E : Env) (b : Backend) (M : ℕ) :
    Acq (lanczos1 E b M) ((lanczos1Req E b M).map Req.res) fun _ => True :=
  Acq.cast (Acq.locals _ ((mLanczos_acq E b 1).bind fun _ _ => Acq.locals _ (stemr_acq E))) (by
    rw [lanczos1Req, List.map_append, List.map_append, List.map_append, ask_res, ask_res])

theorem lanczosN_acq (E : Env) (b : Backend) (M w : ℕ) :
    Acq (lanczosN E b M w) ((lanczosNReq E b M w).map Req.res) fun _ => True :=
  Acq.cast (Acq.locals _ (Acq.locals _ ((mLanczos_acq E b w).bind fun _ _ => Acq.locals _ (repeat_acq (stemr_acq E) w)))) (by
    rw [lanczosNReq, List.map_append, List.map_append, List.map_append, List.map_append, ask_res, ask_res, ask_res])

theorem geqrfGqr_acq (E : Env) : Acq (geqrfGqr E) ((geqrfGqrReq E).map Req.res) fun _ => True :=
  Acq.cast ((Acq.local0 _).bind fun _ _ => Acq.local0 _) rfl

theorem pgeqrfPgqr_acq (E : Env) : Acq (pgeqrfPgqr E) ((pgeqrfPgqrReq E).map Req.res) fun _ => True :=
  Acq.cast ((Acq.newAll _).bind fun _ _ => (Acq.local0 _).bind fun _ _ => (Acq.newAll _).bind fun _ _ =>
    Acq.local0 _) rfl

theorem allocFull_acq (E : Env) (o : Obj) : Acq (allocFull E o) ((allocFullReq E o.has).map Req.res)
    fun o' => o'.has = { o.has with full := true } := by
  unfold allocFull allocFullReq Obj.has
  cases hf : o.full with
  | some v => exact Acq.pure (by rw [hf]; rfl)
  | none =>
    exact Acq.cast ((Acq.newAll _).bind fun _ _ => Acq.pure rfl) (by
      rw [List.append_nil, if_neg (by simp), matrixReq_res])

theorem hhQR_acq (E : Env) (b : Backend) (o : Obj) : Acq (hhQR E b o) ((hhQRReq E b o.has).1.map Req.res)
    fun o' => o'.has = (hhQRReq E b o.has).2 := by
  have k1 : Acq (Memory.locals [.host E.nevex] (do geqrfGqr E; Pure.pure o))
      ((ask .throws [.host E.nevex] ++ geqrfGqrReq E).map Req.res) fun o' => o'.has = o.has :=
    Acq.cast (Acq.locals _ ((geqrfGqr_acq E).bind fun _ _ => Acq.pure rfl)) (by
      rw [List.map_append, ask_res, List.append_nil])
  have k2 : Acq (Memory.locals [.host E.nevex] (do pgeqrfPgqr E; Pure.pure o))
      ((ask .throws [.host E.nevex] ++ pgeqrfPgqrReq E).map Req.res) fun o' => o'.has = o.has :=
    Acq.cast (Acq.locals _ ((pgeqrfPgqr_acq E).bind fun _ _ => Acq.pure rfl)) (by
      rw [List.map_append, ask_res, List.append_nil])
  have k3 : Acq (Memory.locals [.host E.nevex] (do let o ← allocFull E o; geqrfGqr E; Pure.pure o))
      ((ask .throws [.host E.nevex] ++ (allocFullReq E o.has ++ geqrfGqrReq E)).map Req.res)
      fun o' => o'.has = { o.has with full := true } :=
    Acq.cast (Acq.locals _ ((allocFull_acq E o).bind fun _ hx => (geqrfGqr_acq E).bind fun _ _ => Acq.pure hx)) (by
      rw [List.map_append, List.map_append, ask_res, List.append_nil])
  cases b with
  | seq => exact k1
  | inplace => exact k1
  | cuda => exact Acq.pure rfl
  | mpi sc => cases sc; exacts [k3, k2]
  | mgpu aw sc => cases sc; exacts [k3, k2]

theorem displayCond_acq (E : Env) (k : ℕ) : Acq (displayCond E k) ((displayCondReq E k).map Req.res) fun _ => True := by
  unfold displayCond displayCondReq
  split_ifs
  · refine Acq.cast (Acq.locals _ ((Acq.new _).bind fun a _ => (Acq.local0 _).bind fun _ _ => ?_)) (rs :=
      _ ++ (_ ++ (_ ++ []))) ?_
    · split_ifs
      · exact Acq.delete a
      · exact Acq.pure trivial
    · rfl
  · exact Acq.pure trivial

theorem shiftSum_acq (b : Backend) (s : Bool) : Acq (shiftSum b s) ((shiftSumReq b s).map Req.res) fun _ => True := by
  unfold shiftSum shiftSumReq
  split_ifs
  · exact (Acq.newAll _).bind fun _ _ => Acq.pure trivial
  · exact Acq.pure trivial

theorem qr_acq (E : Env) (b : Backend) (path : QrPath) (locked : ℕ) (o : Obj) :
    Acq (qr E b path locked o) ((qrReq E b path locked o.has).1.map Req.res)
      fun o' => o'.has = (qrReq E b path locked o.has).2 := by
  cases path with
  | householder => exact hhQR_acq E b o
  | cholesky s f =>
    refine Acq.cast ((displayCond_acq E locked).bind fun _ _ => (shiftSum_acq b s).bind fun _ _ => ?_)
      (rs := _ ++ (_ ++ ((if f then hhQRReq E b o.has else ([], o.has)).1).map Req.res)) ?_
    · cases f
      · exact Acq.pure rfl
      · exact hhQR_acq E b o
    · simp only [qrReq, List.map_append]

/-- The requests of a call are its acquisitions. -/
theorem call_acq (E : Env) (b : Backend) (path : QrPath) (c : Call R) (o : Obj) :
    Acq (call E b path c o) ((callReq E b path c o.has).1.map Req.res)
      fun o' => o'.has = (callReq E b path c o.has).2 := by
  cases c with
  | qr locked cond => exact qr_acq E b path locked o
  | lanczosDos i m =>
    cases b with
    | mgpu aw sc =>
      cases aw with
      | false => exact Acq.pure rfl
      | true =>
        show Acq (lanczosDos (.mgpu true sc) i m o) _ _
        unfold lanczosDos
        cases hv : o.ritzVc with
        | some v =>
          have e : callReq E (.mgpu true sc) path (Call.lanczosDos (R := R) i m) o.has = ([], o.has) := by
            simp [callReq, lanczosDosReq, Obj.has, hv]
          rw [e]
          exact Acq.pure rfl
        | none =>
          have e : callReq E (.mgpu true sc) path (Call.lanczosDos (R := R) i m) o.has =
              (ask .exits [.device (m * i)], { o.has with ritzVc := true }) := by
            simp [callReq, lanczosDosReq, Obj.has, hv]
          rw [e]
          exact Acq.cast ((Acq.new _).bind fun _ _ => Acq.pure rfl) rfl
    | _ => exact Acq.pure rfl
  | checkSymmetryEasy =>
    refine Acq.cast (Acq.bind (rs := (checkSymReq E b).map Req.res) (Q := fun _ => True) ?_ fun _ _ => Acq.pure rfl)
      (List.append_nil _)
    cases b <;> exact Acq.cast (Acq.local0 _) rfl
  | lanczos1 m => exact Acq.cast ((lanczos1_acq E b m).bind fun _ _ => Acq.pure rfl) (List.append_nil _)
  | lanczosN m w => exact Acq.cast ((lanczosN_acq E b m w).bind fun _ _ => Acq.pure rfl) (List.append_nil _)
  | rr k =>
    refine Acq.cast (Acq.bind (rs := (rrReq E b k).map Req.res) (Q := fun _ => True) ?_ fun _ _ => Acq.pure rfl)
      (List.append_nil _)
    cases b with
    | seq => exact Acq.cast (Acq.locals _ (Acq.local0 _)) rfl
    | cuda => exact Acq.pure trivial
    | mgpu _ _ => exact Acq.pure trivial
    | _ => exact Acq.cast (Acq.local0 _) rfl
  | swap i j =>
    refine Acq.cast (Acq.bind (rs := (swapReq E b).map Req.res) (Q := fun _ => True) ?_ fun _ _ => Acq.pure rfl)
      (List.append_nil _)
    cases b with
    | seq => exact Acq.cast ((Acq.new _).bind fun a _ => Acq.delete a) rfl
    | inplace => exact Acq.cast ((Acq.new _).bind fun _ _ => Acq.pure trivial) rfl
    | _ => exact Acq.pure trivial
  | _ => exact Acq.pure rfl

theorem calls_acq (E : Env) (b : Backend) (path : ℕ → QrPath) (tr : List (Call R)) (k : ℕ) (o : Obj) :
    Acq (calls E b path tr k o) ((callsReq E b path tr k o.has).1.map Req.res)
      fun o' => o'.has = (callsReq E b path tr k o.has).2 := by
  induction tr generalizing k o with
  | nil => exact Acq.pure rfl
  | cons c t ih =>
    refine Acq.cast ((call_acq E b (path k) c o).bind fun o' ho => Acq.cast (ih (k + 1) o') ?_ |>.mono ?_)
      (rs := _ ++ (callsReq E b path t (k + 1) (callReq E b (path k) c o.has).2).1.map Req.res) ?_
    · rw [ho]
    · intro x hx
      rw [hx, ho]
      rfl
    · rw [callsReq, List.map_append]

theorem solves_acq (E : Env) (b : Backend) (path : ℕ → ℕ → QrPath) (trs : List (List (Call R))) (k : ℕ) (o : Obj) :
    Acq (solves E b path trs k o) ((solvesReq E b path trs k o.has).1.map Req.res)
      fun o' => o'.has = (solvesReq E b path trs k o.has).2 := by
  induction trs generalizing k o with
  | nil => exact Acq.pure rfl
  | cons c t ih =>
    refine Acq.cast ((calls_acq E b (path k) c 0 o).bind fun o' ho => Acq.cast (ih (k + 1) o') ?_ |>.mono ?_)
      (rs := _ ++ (solvesReq E b path t (k + 1) (callsReq E b (path k) c 0 o.has).2).1.map Req.res) ?_
    · rw [ho]
    · intro x hx
      rw [hx, ho]
      rfl
    · rw [solvesReq, List.map_append]

/-- The requests of a session are what the model of resources says that it acquires, in the same order. -/
theorem session_acq (E : Env) (b : Backend) (path : ℕ → ℕ → QrPath) (trs : List (List (Call R))) :
    Acq (session E b path trs) ((sessionReq E b path trs).map Req.res) fun _ => True := by
  unfold session sessionReq
  refine Acq.cast ((construct_acq E b).bind fun o ho => Acq.cast (solves_acq E b path trs 0 o) ?_ |>.mono fun _ _ => trivial)
    (rs := _ ++ (solvesReq E b path trs 0 ⟨false, false⟩).1.map Req.res) ?_
  · rw [Obj.has, ho.1, ho.2]
  · rw [List.map_append]

end Verif.Memory

/-
The multi-GPU backend in arbitrary arithmetic, as every process runs it: the data and the copies of Backend/Mgpu with
the collective operations and arbitrary kernels of Rounded/Par.  Cited are ChASE-MPI/impl/chase_mpidla.hpp as dla,
ChASE-MPI/impl/chase_mpidla_mgpu.hpp as mgpu, ChASE-MPI/chase_mpi.hpp as chase_mpi.

Every process has its buffers twice.  The pointers of `ChaseMpiDLA` refer to the host buffers in the staged variant,
and to the device buffers in the CUDA-aware one (`C_comm()` and so on, chase_mpi_matrices.hpp 439-560); the buffers
behind the pointers are what is communicated.  So `own` holds the host buffers in the staged variant and the device
buffers in the CUDA-aware one, and `oth` the other buffers.

Simplifications, besides those of Rounded/Par and Backend/Mgpu: BLAS and cuBLAS, LAPACK and cuSOLVER are the same
kernels; a copy of all `nev + nex` columns is a copy of the whole buffer; memory of the device that holds Ritz values
has the same content on all processes before the first `RR`.
-/
import Verif.Rounded.Par

namespace Verif
namespace Rounded
namespace ParGpu

open Matrix
open Seq (NextOp)
open Verif.Spmd
open Mpi (Layout)
open Mpi.Spmd (Pos Own c2b collectCol swapOwn)
open Par (Kern DEnv Reds redCol redRow flat square ext)

/-- Run-time parameters. -/
structure GEnv (K R : Type) extends DEnv K R where
  /-- `CUDA_AWARE` -/
  aware : Bool
  /-- whether `cudaMemcpy` copies when told `cudaMemcpyDeviceToHost` for two device addresses: dla 341-353 -/
  copyDone : Bool
  /-- `residual_gpu` for one column: from the Ritz value and the columns of `B` and `B2` -/
  residual : ∀ {n : ℕ}, R → (Fin n → K) → (Fin n → K) → R

/-- Buffers of one process: chase_mpi_matrices.hpp 386-423. -/
structure Bufs (K : Type) (m n : ℕ) where
  C : ℕ → Fin m → K
  C2 : ℕ → Fin m → K
  B : ℕ → Fin n → K
  B2 : ℕ → Fin n → K

variable {K R : Type} {N : ℕ} {r c : Layout N}

/-- Data members of one process: the buffers behind the pointers with the host matrix and the members of `ChaseMpiDLA`
(`own`), the matrix on the device, the other buffers, the Ritz values on the device, and `isHHqr` (dla 1759). -/
structure GOwn (K R : Type) (r c : Layout N) (p : Pos r c) where
  own : Own K r c p
  dH : Matrix (Fin (r.size p.1)) (Fin (c.size p.2)) K
  oth : Bufs K (r.size p.1) (c.size p.2)
  ritz : ℕ → R
  hh : Bool

/-- The buffers behind the pointers with the matrix on the device. -/
def GOwn.view {p : Pos r c} (d : GOwn K R r c p) : Own K r c p := { d.own with H := d.dH }

/-- Storing through the pointers; the matrix is not stored. -/
def GOwn.store {p : Pos r c} (d : GOwn K R r c p) (q : Own K r c p) : GOwn K R r c p :=
  { d with own := { q with H := d.own.H } }

/-- A piece of `ChaseMpiDLA` that uses its pointers and the matrix on the device. -/
def onView {α : Type} {p : Pos r c} (f : Own K r c p → Prog (fun p => α × Own K r c p) p) (d : GOwn K R r c p) :
    Prog (fun p => α × GOwn K R r c p) p :=
  (f d.view).bind fun x => .ret (x.1, d.store x.2)

section Copies
variable {m n : ℕ}

/-- `H2D(rows, len, off)` for each buffer, from the host buffers `q` to the device buffers `o`:
chase_mpi_matrices.hpp 222-227. -/
def upC (off len : ℕ) (q : Mpi.Proc K m n) (o : Bufs K m n) : Bufs K m n := { o with C := copyCols off len q.C o.C }
def upC2 (off len : ℕ) (q : Mpi.Proc K m n) (o : Bufs K m n) : Bufs K m n := { o with C2 := copyCols off len q.C2 o.C2 }
def upB (off len : ℕ) (q : Mpi.Proc K m n) (o : Bufs K m n) : Bufs K m n := { o with B := copyCols off len q.B o.B }
def upB2 (off len : ℕ) (q : Mpi.Proc K m n) (o : Bufs K m n) : Bufs K m n := { o with B2 := copyCols off len q.B2 o.B2 }

end Copies

variable (red : Reds K R r c) (E : GEnv K R)

/-- The local product of `apply` and `asynCxHGatherC` on the device, adjoint: mgpu 461-474, 526-530. -/
def prodB (p : Pos r c) (dH : Matrix (Fin (r.size p.1)) (Fin (c.size p.2)) K) (α β : K) (off block : ℕ)
    (o : Bufs K (r.size p.1) (c.size p.2)) : Matrix (Fin (c.size p.2)) (Fin block) K :=
  E.kern.gemmAdj dH α (if p.1.val ≠ 0 then E.kern.zero else β) (getBlk off block o.C) (getBlk off block o.B)

/-- The local product of `apply` on the device: mgpu 480-492. -/
def prodC (p : Pos r c) (dH : Matrix (Fin (r.size p.1)) (Fin (c.size p.2)) K) (α β : K) (off block : ℕ)
    (o : Bufs K (r.size p.1) (c.size p.2)) : Matrix (Fin (r.size p.1)) (Fin block) K :=
  E.kern.gemm dH α (if p.2.val ≠ 0 then E.kern.zero else β) (getBlk off block o.B) (getBlk off block o.C)

/-- `apply`: dla 472-523, mgpu 452-497.  Staged: the vectors are copied to the device, the local product is made there
and copied to the host, where the reduction replaces it; `beta` multiplies what the device holds. -/
def hemmProg (p : Pos r c) (block : ℕ) (α β : K) (offset : ℕ) (d : GOwn K R r c p) :
    Prog (fun p => Unit × GOwn K R r c p) p :=
  if E.aware then onView (Par.hemmProg red E.toDEnv p block α β offset) d
  else
    let l := d.own.locked + offset
    match d.own.next with
    | .bAc =>
      let o := upC l block d.own d.oth
      let X := prodB E p d.dH α β l block o
      .op (redCol red.colK fun j => Fin (c.size j) × Fin block) (flat X) fun x =>
      .ret ((), { d with
        own := { d.own with B := setBlk l (square x) d.own.B, next := .cAb }
        oth := { o with B := setBlk l X o.B } })
    | .cAb =>
      let o := upB l block d.own d.oth
      let X := prodC E p d.dH α β l block o
      .op (redRow red.rowK fun i => Fin (r.size i) × Fin block) (flat X) fun x =>
      .ret ((), { d with
        own := { d.own with C := setBlk l (square x) d.own.C, next := .bAc }
        oth := { o with C := setBlk l X o.C } })

/-- `asynCxHGatherC`: dla 657-716, mgpu 514-534; `copied` is the argument `isCcopied`. -/
def gatherProg (p : Pos r c) (block : ℕ) (copied : Bool) (d : GOwn K R r c p) : Prog (fun p => GOwn K R r c p) p :=
  if E.aware then (Par.gatherProg red E.toDEnv p block d.view).bind fun q => .ret (d.store q)
  else
    let l := d.own.locked
    let o := if copied then d.oth else upC l block d.own d.oth
    let X := prodB E p d.dH E.kern.one E.kern.zero l block o
    (c2b p block (fun k => d.own.C2 (l + k)) E.cRuns (fun k => d.own.B2 (l + k))).bind fun x =>
    .op (redCol red.colK fun j => Fin (c.size j) × Fin block) (flat X) fun y =>
    .ret { d with
      own := { d.own with B2 := writeAt d.own.B2 l block x, B := setBlk l (square y) d.own.B }
      oth := { o with B := setBlk l X o.B } }

/-- The buffers on the device. -/
def dev {p : Pos r c} (d : GOwn K R r c p) : Bufs K (r.size p.1) (c.size p.2) :=
  if E.aware then ⟨d.own.C, d.own.C2, d.own.B, d.own.B2⟩ else d.oth

/-- The end of `RR` after the reduction of the projected matrix `A`: mgpu 728-763 (`heevd`, with `locked = nevex - n`),
dla 971-981. -/
def rrDone [Zero R] {p : Pos r c} (block : ℕ) (A : Matrix (Fin block) (Fin block) K) (d : GOwn K R r c p) :
    (ℕ → R) × GOwn K R r c p :=
  let vals := ext 0 (E.kern.heevd A).1
  let lk := E.nevex - block
  let o := upC2 lk block d.own d.oth
  let X := E.kern.back (getBlk lk block (if E.aware then d.own.C2 else o.C2)) (E.kern.heevd A).2
  let C := if E.aware then setBlk lk X d.own.C else copyCols lk block (setBlk lk X o.C) d.own.C
  (vals, { d with
    own := { d.own with C := C, C2 := copyCols d.own.locked block C d.own.C2 }
    oth := if E.aware then d.oth else { o with C := setBlk lk X o.C }
    ritz := writeAt d.ritz 0 block vals })

/-- `RR`: dla 952-982, mgpu 609-625. -/
def rrProg [Zero R] (p : Pos r c) (block : ℕ) (d : GOwn K R r c p) : Prog (fun p => (ℕ → R) × GOwn K R r c p) p :=
  (gatherProg red E p block (!d.hh) d).bind fun d =>
  let l := d.own.locked
  let d : GOwn K R r c p := if E.aware then d else { d with oth := upB2 l block d.own (upB l block d.own d.oth) }
  .op (redRow red.rowK fun _ => Fin block × Fin block)
    (flat (E.kern.proj (getBlk l block (dev E d).B2) (getBlk l block (dev E d).B))) fun x =>
  .ret (rrDone E block (square x) d)

/-- `Resd`: dla 984-1020, mgpu 706-724; the staged variant works on the host, the CUDA-aware one calls `residual_gpu`
with the Ritz values on the device, which changes no vector. -/
def resdProg [Neg R] [Zero R] (p : Pos r c) (ritzv : ℕ → R) (fixednev : ℕ) (d : GOwn K R r c p) :
    Prog (fun p => (ℕ → R) × GOwn K R r c p) p :=
  let u := E.nevex - fixednev
  (gatherProg red E p u true d).bind fun d =>
  let l := d.own.locked
  if E.aware then
    .op (redRow red.rowR fun _ => Fin u) (fun t => E.residual (d.ritz t) (d.own.B (l + t)) (d.own.B2 (l + t))) fun x =>
    .ret (ext 0 fun t => E.kern.sqrt (x t), d)
  else
    .op (redRow red.rowR fun _ => Fin u) (fun t => (Par.resdLocal E.toDEnv ritzv l u d.own).1 t) fun x =>
    .ret (ext 0 fun t => E.kern.sqrt (x t),
      { d with own := { d.own with B := (Par.resdLocal E.toDEnv ritzv l u d.own).2 } })

/-- `cholQR2` with the second `potrf` returning `0` whatever happens (argument `isinfo`, mgpu 656-679): dla 1181-1227. -/
def cholQR2Dev (p : Pos r c) (d : Own K r c p) : Prog (fun p => ℤ × Own K r c p) p :=
  Par.gramProg red E.toDEnv p d fun A =>
  let x := E.kern.potrf A
  if x.1 ≠ 0 then .ret (x.1, d)
  else
    let d : Own K r c p := Par.putC d (E.kern.trsm x.2 d.C)
    Par.gramProg red E.toDEnv p d fun A => .ret (0, Par.putC d (E.kern.trsm (E.kern.potrf A).2 d.C))

/-- A Cholesky QR `f` on the device: dla 1145-1306.  Staged: the first `syherk` copies the vectors to the device (mgpu
631-634), the last `trsm` copies them back (mgpu 690-695), which happens if `f` does not stop early. -/
def cholProg {p : Pos r c} (f : Own K r c p → Prog (fun p => ℤ × Own K r c p) p) (d : GOwn K R r c p) :
    Prog (fun p => ℤ × GOwn K R r c p) p :=
  (f d.own).bind fun x =>
  .ret (x.1, { d with
    own := if E.aware then x.2 else if x.1 = 0 then x.2 else d.own
    oth := if E.aware then d.oth else { d.oth with C := x.2.C }
    hh := false })

/-- `hhQR`: dla 1054-1118.  CUDA-aware: the vectors are copied to the host first; with ScaLAPACK the result is copied
back to the device, otherwise not (`preApplication`, dla 424-449, mgpu 438-447, is called with `locked = 0`). -/
noncomputable def hhQRProg (p : Pos r c) (d : GOwn K R r c p) : Prog (fun p => GOwn K R r c p) p :=
  .op collectCol d.own.C fun V =>
  let Q : Matrix (Fin (r.size p.1)) (Fin E.nevex) K := fun a k => E.kern.hhqr (getBlk 0 E.nevex V) (r.glob p.1 a) k
  .ret { d with
    own := { d.own with
      C := if E.aware && !E.scalapack then d.own.C else setBlk 0 Q d.own.C
      next := if E.scalapack then d.own.next else .bAc }
    oth := if E.aware then { d.oth with C := setBlk 0 Q d.oth.C } else d.oth
    hh := if E.scalapack then d.hh else true }

/-- `lockVectorCopyAndOrthoConcatswap`: dla 1344-1358 with the copy modes of dla 327-353.  After a Cholesky QR the
CUDA-aware variant copies from `C` to `C2`, both on the device, with `cudaMemcpyDeviceToHost`. -/
def lockCopyOwn {p : Pos r c} (isHH : Bool) (d : GOwn K R r c p) : GOwn K R r c p :=
  let C := copyCols 0 d.own.locked d.own.C2 d.own.C
  { d with own := { d.own with
      C := C
      C2 := if E.aware && !isHH && !E.copyDone then d.own.C2
        else copyCols d.own.locked (E.nevex - d.own.locked) C d.own.C2 } }

/-- `ChaseMpi::QR`: chase_mpi 351-427 (cf. `qrSelect`). -/
noncomputable def qrProg (p : Pos r c) (cond : R) (d : GOwn K R r c p) : Prog (fun p => Unit × GOwn K R r c p) p :=
  if cholDisable E.doCholQR E.envDisable = 1 then
    (hhQRProg E p d).bind fun d => .ret ((), lockCopyOwn E true d)
  else
    (cholProg E (if E.kern.above cond then Par.shiftedcholQR2Prog red E.toDEnv p
      else if E.kern.below cond then Par.cholQR1Prog red E.toDEnv p
      else cholQR2Dev red E p) d).bind fun x =>
    if x.1 ≠ 0 then (hhQRProg E p x.2).bind fun d => .ret ((), lockCopyOwn E true d)
    else .ret ((), lockCopyOwn E false x.2)

/-- `initVecs` after `initRndVecs` unless start vectors are given: dla 373-383, mgpu 405-434.  The numbers are drawn on
the device and copied to the host in the staged variant. -/
def initVecsOwn {p : Pos r c} (random : Bool) (d : GOwn K R r c p) : GOwn K R r c p :=
  { d with
    own := Par.initVecsOwn E.toDEnv random d.own
    dH := d.own.H
    oth := if random && !E.aware then { d.oth with
      C := writeAt d.oth.C 0 E.nevex (fun k a => E.gen p.1 (k * r.size p.1 + a)) } else d.oth }

/-- `shiftMatrix`: dla 725-741, mgpu 505-510 with the list of diagonal entries of mgpu 347-364 (the entries that
`shiftLocal` visits, theorem C47). -/
def shiftOwn {p : Pos r c} (x : K) (d : GOwn K R r c p) : GOwn K R r c p :=
  { d with
    own := { d.own with next := if d.own.fresh then .bAc else d.own.next, fresh := false }
    dH := Par.shiftLocal E.toDEnv (r.tab p.1) (c.tab p.2) x d.dH }

/-- What process `p` does for a call of the interface: chase_mpi 255-560.  `checkSymmetryEasy` uses the host matrix
(dla 757-820); `End` of the CUDA-aware variant copies the first `nev` vectors to the host (mgpu 564-569); `Swap` (dla
1360-1369), `LanczosDos` (mgpu 798-822) and `mLanczos` (dla 1376-1505, `applyVec`, mgpu 909-925) use the buffers of the
pointers and the matrix on the device. -/
noncomputable def callProg [Neg R] [Zero R] (p : Pos r c) : (q : Req R) → GOwn K R r c p →
    Prog (fun p => q.Ans × GOwn K R r c p) p
  | .checkSymmetryEasy, d => (Par.symCheckProg red E.toDEnv p d.own).bind fun x => .ret (x.1, { d with own := x.2 })
  | .start, d => .ret ((), { d with own := { d.own with locked := 0 } })
  | .finish, d => .ret ((), if E.aware then { d with oth := { d.oth with
      C := copyCols 0 E.nev d.own.C d.oth.C } } else d)
  | .initVecs random, d => .ret ((), initVecsOwn E random d)
  | .qr _ cond, d => qrProg red E p cond d
  | .lanczos1 m, d => onView (Par.callProg red E.toDEnv p (.lanczos1 m)) d
  | .lanczosN m numvec, d => onView (Par.callProg red E.toDEnv p (.lanczosN m numvec)) d
  | .lanczosDos idx m z, d => onView (Par.callProg red E.toDEnv p (.lanczosDos idx m z)) d
  | .shift x _, d => .ret ((), shiftOwn E (E.kern.ofBase x) d)
  | .hemm block α β offset, d => hemmProg red E p block (E.kern.ofBase α) (E.kern.ofBase β) offset d
  | .rr block, d => rrProg red E p block d
  | .resd ritzv fixednev, d => resdProg red E p ritzv fixednev d
  | .lock k, d => .ret ((), { d with own := { d.own with locked := d.own.locked + k } })
  | .swap a b, d => .ret ((), d.store (swapOwn a b d.own))

/-- What process `p` does for a sequence of calls: each process runs the algorithm itself. -/
noncomputable def prog [Neg R] [Zero R] {α : Type} (p : Pos r c) : Script R α → GOwn K R r c p →
    Prog (fun p => α × GOwn K R r c p) p
  | .ret a, d => .ret (a, d)
  | .ask q k, d => (callProg red E p q d).bind fun x => prog p (k x.1) x.2

/-- `Algorithm<T>::solve` on process `p`: algorithm.inc 324-572, called by every process of the grid. -/
noncomputable def solveProg [Add R] [Sub R] [Mul R] [Div R] [Neg R] [Zero R] [One R] [NatCast R] [LT R] [DecidableLT R]
    (P : Plat R) (cfg : Config R) (ritzv0 resid0 : ℕ → R) (p : Pos r c) (d : GOwn K R r c p) :
    Prog (fun p => Except Err (Outcome R Unit) × GOwn K R r c p) p :=
  prog red E p (solveT P cfg ritzv0 resid0) d

end ParGpu
end Rounded
end Verif

/-
Model of the multi-GPU backend: `ChaseMpiDLA` (ChASE-MPI/impl/chase_mpidla.hpp, cited as dla) on top of
`ChaseMpiDLAMultiGPU` (ChASE-MPI/impl/chase_mpidla_mgpu.hpp, cited as mgpu).

Every process has its buffers twice, in host memory and on its device.  Two variants exist.  In the
staged one (`CUDA_AWARE` not defined) communication and the code of `ChaseMpiDLA` use the host buffers,
and blocks are copied to the device before and back after a product.  In the CUDA-aware one they use the
device buffers (`C_comm()` and so on, chase_mpi_matrices.hpp 439-560), and the host buffers are used by
the Householder QR and at the end.  What a copy moves, and when, is part of the model; that the copies
`cublasSetMatrix`, `cublasGetMatrix` and `cudaMemcpy` move the columns they name is assumed.  cuBLAS and
cuSOLVER compute what BLAS and LAPACK compute (`Lapack`); the kernels are modelled in Verif.Gpu.

The matrix `A` of the projected problem is not part of the state: it is written and used within a call.
-/
import Verif.Backend.Mpi
import Verif.Gpu.Model

namespace Verif
namespace Mgpu

open Matrix
open Seq (NextOp)
open Mpi (Layout Proc MEnv Fam)

/-- Data members of one process: the host buffers and the members of `ChaseMpiDLA` (`host`), the device
buffers (chase_mpi_matrices.hpp 386-423), the device copy of the Ritz values, and the member `isHHqr`
(dla 1759), which the constructor leaves uninitialised: any value may be found there at first. -/
structure GProc (K : Type*) (m n : ℕ) where
  host : Proc K m n
  dH : Matrix (Fin m) (Fin n) K
  dC : ℕ → Fin m → K
  dC2 : ℕ → Fin m → K
  dB : ℕ → Fin n → K
  dB2 : ℕ → Fin n → K
  dRitz : ℕ → ℝ
  hh : Bool

/-- Parameters. `mpi.gen` is what cuRAND draws (`chase_rand_normal`, mgpu 422-434, theorem C59). -/
structure GpuEnv (K : Type*) [RCLike K] where
  mpi : MEnv K
  /-- `CUDA_AWARE` -/
  aware : Bool
  /-- whether `cudaMemcpy` copies when told `cudaMemcpyDeviceToHost` for two device addresses: the CUDA
  documentation leaves it undefined, see `lockVectorCopy` -/
  copyDone : Bool

variable {K : Type*} [RCLike K] {N : ℕ} {r c : Layout N}

/-- The states of all processes. -/
abbrev GFam (K : Type*) {N : ℕ} (r c : Layout N) : Type _ :=
  (i : Fin r.procs) → (j : Fin c.procs) → GProc K (r.size i) (c.size j)

section Proc
variable {m n : ℕ}

/-- The device buffers as the buffers of a process. -/
def GProc.dev (p : GProc K m n) : Proc K m n :=
  { p.host with H := p.dH, C := p.dC, C2 := p.dC2, B := p.dB, B2 := p.dB2 }

/-- The buffers that the pointers `C`, `C2`, `B`, `B2` of `ChaseMpiDLA` refer to (dla 306-316), with the
matrix on the device. -/
def GProc.work (aware : Bool) (p : GProc K m n) : Proc K m n :=
  if aware then p.dev else { p.host with H := p.dH }

/-- Storing through these pointers; the matrix is not stored. -/
def GProc.put (aware : Bool) (p : GProc K m n) (q : Proc K m n) : GProc K m n :=
  if aware then
    { p with
      host := { q with H := p.host.H, C := p.host.C, C2 := p.host.C2, B := p.host.B, B2 := p.host.B2 }
      dC := q.C, dC2 := q.C2, dB := q.B, dB2 := q.B2 }
  else { p with host := { q with H := p.host.H } }

/-- `C.H2D(m, len, off)`: chase_mpi_matrices.hpp 222-227. -/
def GProc.upC (off len : ℕ) (p : GProc K m n) : GProc K m n :=
  { p with dC := copyCols off len p.host.C p.dC }
/-- `C2.H2D`. -/
def GProc.upC2 (off len : ℕ) (p : GProc K m n) : GProc K m n :=
  { p with dC2 := copyCols off len p.host.C2 p.dC2 }
/-- `B.H2D`. -/
def GProc.upB (off len : ℕ) (p : GProc K m n) : GProc K m n :=
  { p with dB := copyCols off len p.host.B p.dB }
/-- `B2.H2D`. -/
def GProc.upB2 (off len : ℕ) (p : GProc K m n) : GProc K m n :=
  { p with dB2 := copyCols off len p.host.B2 p.dB2 }
/-- `C.D2H(m, len, off)`: chase_mpi_matrices.hpp 235-240. -/
def GProc.downC (off len : ℕ) (p : GProc K m n) : GProc K m n :=
  { p with host := { p.host with C := copyCols off len p.dC p.host.C } }

end Proc

variable (E : GpuEnv K)

/-- A piece of `ChaseMpiDLA` that uses its pointers `C`, `C2`, `B`, `B2` (and the matrix on the device). -/
def lift (f : Fam K r c → Fam K r c) (s : GFam K r c) : GFam K r c := fun i j =>
  (s i j).put E.aware (f (fun i j => (s i j).work E.aware) i j)

/-- Only in the staged variant. -/
def staged (f : {m n : ℕ} → GProc K m n → GProc K m n) (s : GFam K r c) : GFam K r c := fun i j =>
  if E.aware then s i j else f (s i j)

/-- `initRndVecs`: mgpu 422-434. -/
def initRndVecs (s : GFam K r c) : GFam K r c :=
  staged E (GProc.downC 0 E.mpi.base.nevex) fun i j => { s i j with
    dC := writeAt (s i j).dC 0 E.mpi.base.nevex (fun k a => E.mpi.gen i (k * r.size i + a)) }

/-- `initVecs`: dla 373-383, mgpu 405-416. -/
def initVecs (s : GFam K r c) : GFam K r c := fun i j =>
  { lift E (Mpi.initVecs E.mpi) s i j with dH := (s i j).host.H }

/-- `apply`: dla 472-523, mgpu 452-497.  In the staged variant the local result is also copied to the
host buffer, where the reduction replaces it. -/
def apply (α β : K) (offset block locked : ℕ) (s : GFam K r c) : GFam K r c := fun i j =>
  match (s i j).host.next with
  | .bAc =>
    let s1 : GFam K r c := staged E (GProc.upC (locked + offset) block) s
    let X := fun i' : Fin r.procs => Mpi.gemmB α β (locked + offset) block i' (s1 i' j).dev
    let p : GProc K _ _ := { s1 i j with dB := setBlk (locked + offset) (X i) (s1 i j).dB }
    p.put E.aware { p.work E.aware with
      B := setBlk (locked + offset) (∑ i', X i') (p.work E.aware).B, next := .cAb }
  | .cAb =>
    let s1 : GFam K r c := staged E (GProc.upB (locked + offset) block) s
    let X := fun j' : Fin c.procs => Mpi.gemmC α β (locked + offset) block j' (s1 i j').dev
    let p : GProc K _ _ := { s1 i j with dC := setBlk (locked + offset) (X j) (s1 i j).dC }
    p.put E.aware { p.work E.aware with
      C := setBlk (locked + offset) (∑ j', X j') (p.work E.aware).C, next := .bAc }

/-- `chase_shift_mgpu_matrix` on the entries listed by the constructor: mgpu 347-364, 505-510; one thread
per entry (theorem C47: in any order). -/
def shiftDev (R Cl : Dist.Local) (x : K) (H : Matrix (Fin R.size) (Fin Cl.size) K) :
    Matrix (Fin R.size) (Fin Cl.size) K :=
  (Gpu.diagOffsets R Cl).foldl (fun H o => fun a b =>
    if a.val = o.1 ∧ b.val = o.2 then H a b + x else H a b) H

/-- `shiftMatrix`: dla 725-741, mgpu 505-510.  `preApplication` (mgpu 438-447) is called with
`locked = 0`, when it copies nothing. -/
def shift (x : K) (s : GFam K r c) : GFam K r c := fun i j =>
  { s i j with
    host := { (s i j).host with
      next := if (s i j).host.fresh then .bAc else (s i j).host.next, fresh := false }
    dH := shiftDev (r.tab i) (c.tab j) x (s i j).dH }

/-- `asynCxHGatherC`: dla 657-716, mgpu 514-534; `copied i j` is the argument `isCcopied` on process
`(i, j)`. -/
def asynCxHGatherC (locked block : ℕ) (copied : Fin r.procs → Fin c.procs → Bool) (s : GFam K r c) :
    GFam K r c := fun i j =>
  let s0 : GFam K r c := fun i j => if copied i j then s i j else staged E (GProc.upC locked block) s i j
  let X := fun i' : Fin r.procs => (s0 i' j).dHᴴ * getBlk locked block (s0 i' j).dC
  let p : GProc K _ _ := { s0 i j with dB := setBlk locked (X i) (s0 i j).dB }
  p.put E.aware { p.work E.aware with
    B2 := writeAt (p.work E.aware).B2 locked block (fun k =>
      Mpi.redist E.mpi.cRuns (fun i' => ((s i' j).work E.aware).C2 (locked + k)) j
        ((p.work E.aware).B2 (locked + k)))
    B := setBlk locked (∑ i', X i') (p.work E.aware).B }

/-- `RR`: dla 952-982, mgpu 609-625 (local product), 728-763 (`heevd`, with `locked = nevex - n`). -/
def rr (block : ℕ) (locked : Fin r.procs → Fin c.procs → ℕ) (s : GFam K r c) :
    (Fin r.procs → Fin c.procs → ℕ → ℝ) × GFam K r c :=
  let s1 : GFam K r c := fun i j =>
    asynCxHGatherC E (locked i j) block (fun i j => !(s i j).hh) s i j
  let s2 : GFam K r c := fun i j =>
    staged E (fun p => (p.upB (locked i j) block).upB2 (locked i j) block) s1 i j
  let A : (i : Fin r.procs) → (j : Fin c.procs) → Matrix (Fin block) (Fin block) K := fun i j =>
    Mpi.rrMatrix (locked i j) block (fun i j => (s2 i j).dev) i
  let w : Fin r.procs → Fin c.procs → ℕ → ℝ := fun i j t => if h : t < block then
    (E.mpi.base.lapack.heevd (A i j)).1 ⟨t, h⟩ else 0
  (w, fun i j =>
    let lk := E.mpi.base.nevex - block
    let p := staged E (GProc.upC2 lk block) s2 i j
    let p := { p with
      dRitz := writeAt p.dRitz 0 block (w i j)
      dC := setBlk lk (getBlk lk block p.dC2 * (E.mpi.base.lapack.heevd (A i j)).2) p.dC }
    let p := if E.aware then p else p.downC lk block
    p.put E.aware { p.work E.aware with
      C2 := copyCols (locked i j) block (p.work E.aware).C (p.work E.aware).C2 })

/-- `Resd`: dla 984-1020, mgpu 706-724.  The staged variant works on the host with the argument `ritzv`;
the CUDA-aware one calls `residual_gpu` (theorem C46) with the Ritz values on the device, which changes
no vector. -/
noncomputable def resd (ritzv : ℕ → ℝ) (fixednev : ℕ) (locked : Fin r.procs → Fin c.procs → ℕ)
    (s : GFam K r c) : (Fin r.procs → Fin c.procs → ℕ → ℝ) × GFam K r c :=
  let u := E.mpi.base.nevex - fixednev
  let s1 : GFam K r c := fun i j => asynCxHGatherC E (locked i j) u (fun _ _ => true) s i j
  let part : (i : Fin r.procs) → (j : Fin c.procs) → ℕ → (ℕ → ℝ) × (ℕ → Fin (c.size j) → K) :=
    fun i j l => Mpi.resdLocal (if E.aware then (s1 i j).dRitz else ritzv) l u ((s1 i j).work E.aware)
  (fun i j t => if t < u then Real.sqrt (∑ j', (part i j' (locked i j)).1 t) else 0,
   fun i j => if E.aware then s1 i j
    else { s1 i j with host := { (s1 i j).host with B := (part i j (locked i j)).2 } })

/-- `hhQR`: dla 1054-1118.  The vectors are copied to the host if the pointers refer to the device.
ScaLAPACK: the result is copied back to the device (`syncFromPtr`).  Otherwise `preApplication`
(dla 424-449, mgpu 438-447) writes it into the host buffer, `locked` is `0` and nothing is copied to the
device. -/
noncomputable def hhQR (s : GFam K r c) : GFam K r c := fun i j =>
  let s1 : GFam K r c := fun i j =>
    if E.aware then (s i j).downC 0 E.mpi.base.nevex else s i j
  let p : GProc K _ _ := { s1 i j with host := Mpi.hhQR E.mpi (fun i j => (s1 i j).host) i j }
  if E.mpi.scalapack then (if E.aware then p.upC 0 E.mpi.base.nevex else p)
  else { p with hh := true }

/-- The vectors of one process column. -/
abbrev Cols (K : Type*) {N : ℕ} (r : Layout N) : Type _ := (i : Fin r.procs) → ℕ → Fin (r.size i) → K

/-- `cholQR2` with the second `potrf` returning `0` whatever happens (argument `isinfo`, mgpu 656-679):
dla 1181-1227. -/
noncomputable def cholQR2 (n : ℕ) (C : Cols K r) : ℤ × Cols K r :=
  let (info1, A) := E.mpi.base.lapack.potrf (∑ i', syherk (getBlk 0 n (C i')))
  if info1 ≠ 0 then (info1, C)
  else
    let C : Cols K r := fun i => trsm A (C i)
    let (_, A) := E.mpi.base.lapack.potrf (∑ i', syherk (getBlk 0 n (C i')))
    (0, fun i => trsm A (C i))

/-- A Cholesky QR `f` on the device: dla 1145-1306.  Staged: the first `syherk` copies the vectors to the
device (mgpu 631-634), the last `trsm` copies them back (mgpu 690-695), which happens if `f` does not
stop early. -/
noncomputable def chol (f : Cols K r → ℤ × Cols K r) (j0 : Fin c.procs) (s : GFam K r c) :
    ℤ × GFam K r c :=
  let s1 : GFam K r c := staged E (GProc.upC 0 E.mpi.base.nevex) s
  let D : Fin c.procs → ℤ × Cols K r := fun j => f fun i => (s1 i j).dC
  ((D j0).1, fun i j =>
    let p : GProc K _ _ := { s1 i j with dC := (D j).2 i, hh := false }
    if (D j).1 = 0 then (if E.aware then p else p.downC 0 E.mpi.base.nevex) else p)

/-- `lockVectorCopyAndOrthoConcatswap`: dla 1344-1358 with the copy modes of dla 327-353.  After a
Cholesky QR the CUDA-aware variant copies from `C` to `C2`, both on the device, with
`cudaMemcpyDeviceToHost`. -/
def lockVectorCopy (locked : Fin r.procs → Fin c.procs → ℕ) (isHH : Bool) (s : GFam K r c) :
    GFam K r c :=
  lift E (fun s i j =>
    let C := copyCols 0 (locked i j) (s i j).C2 (s i j).C
    { s i j with
      C := C
      C2 := if E.aware && !isHH && !E.copyDone then (s i j).C2
        else copyCols (locked i j) (E.mpi.base.nevex - locked i j) C (s i j).C2 }) s

/-- The routines behind `ChaseMpi::QR`. -/
noncomputable def qrRoutines (j0 : Fin c.procs) (locked : Fin r.procs → Fin c.procs → ℕ) :
    QrRoutines (GFam K r c) where
  hhQR := hhQR E
  cholQR1 := chol E (Mpi.cholQR1 E.mpi E.mpi.base.nevex) j0
  cholQR2 := chol E (cholQR2 E E.mpi.base.nevex) j0
  shiftedcholQR2 := chol E (Mpi.shiftedcholQR2 E.mpi E.mpi.base.nevex) j0
  lockCopy := lockVectorCopy E locked

/-- `End`: mgpu 564-569; the CUDA-aware variant copies the first `nev` vectors to the host. -/
def finish (s : GFam K r c) : GFam K r c := fun i j =>
  if E.aware then (s i j).downC 0 E.mpi.base.nev else s i j

/-- The backend as process `(i0, j0)` sees it: `ChaseMpi` (chase_mpi.hpp 255-560) on top of
`ChaseMpiDLA`.  `checkSymmetryEasy` uses the host matrix (dla 757-820).  `Swap` (dla 1360-1369),
`LanczosDos` (mgpu 798-822) and `mLanczos` (dla 1376-1505; `applyVec`, mgpu 909-925, copies its vector to the
device and the product back) use the buffers of the pointers and the matrix on the device. -/
noncomputable def opsAt (i0 : Fin r.procs) (j0 : Fin c.procs) : Chase ℝ (GFam K r c) where
  checkSymmetryEasy := fun s => (Mpi.symCheck E.mpi (fun i j => (s i j).host), fun i j =>
    { s i j with host := { (s i j).host with
        isSym := Mpi.symCheck E.mpi (fun i j => (s i j).host) } })
  start := fun s i j => { s i j with host := { (s i j).host with locked := 0 } }
  finish := finish E
  initVecs := fun random s => initVecs E (if random then initRndVecs E s else s)
  qr := fun _ cond s => qrSelect (qrRoutines E j0 fun i j => (s i j).host.locked) E.mpi.base.doCholQR
    E.mpi.base.envDisable (open Classical in decide (cond > E.mpi.base.condUpper))
    (open Classical in decide (cond < E.mpi.base.condLower)) s
  lanczos1 := fun m s => (Mpi.boundOf E.mpi.base.lapack m
    (Mpi.mLanczos E.mpi (fun i j => (s i j).work E.aware) m 1 false i0 j0), s)
  lanczosN := fun m numvec s => (Mpi.multiOf E.mpi.base.lapack m numvec
    (Mpi.mLanczos E.mpi (fun i j => (s i j).work E.aware) m numvec true i0 j0),
    lift E (fun s i j => { s i j with C := (Mpi.mLanczos E.mpi s m numvec true i j).C }) s)
  lanczosDos := fun idx m z s => lift E (Mpi.lanczosDos idx m z) s
  shift := fun x _ s => shift (x : K) s
  hemm := fun block α β offset s i j =>
    apply E (α : K) (β : K) offset block (s i j).host.locked s i j
  rr := fun block s => ((rr E block (fun i j => (s i j).host.locked) s).1 i0 j0,
    (rr E block (fun i j => (s i j).host.locked) s).2)
  resd := fun ritzv fixednev s =>
    ((resd E ritzv fixednev (fun i j => (s i j).host.locked) s).1 i0 j0,
      (resd E ritzv fixednev (fun i j => (s i j).host.locked) s).2)
  lock := fun k s i j => { s i j with host := { (s i j).host with locked := (s i j).host.locked + k } }
  swap := fun a b s => lift E (Mpi.swap a b) s

end Mgpu
end Verif
